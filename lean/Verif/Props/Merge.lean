import Verif.Model.Merge
import Verif.Lemmas.Lines

/-!
# C21: merging of copy lines
-/
namespace ExtMpi.Merge
open ExtMpi.Lines

/-- Adjacent lines that agree in kind and numbers agree in the buffer kinds, and if the second one
ends where the first begins judged by the size of the first, the sizes are equal. -/
def AdjOK : List Line → Prop
  | .copy c :: .copy d :: ls =>
    (keyEq c d = true → c.buf1 = d.buf1 ∧ c.buf2 = d.buf2 ∧
      (d.off1 + c.size = c.off1 → d.off2 + c.size = c.off2 → d.size = c.size)) ∧
    AdjOK (.copy d :: ls)
  | _ :: ls => AdjOK ls
  | [] => True

theorem AdjOK.tail {l : Line} {ls : List Line} (h : AdjOK (l :: ls)) : AdjOK ls := by
  cases l with
  | copy c =>
    cases ls with
    | nil => trivial
    | cons d ls =>
      cases d with
      | copy d => exact h.2
      | barrier => exact h
      | other a => exact h
  | barrier => exact h
  | other a => exact h

theorem keyEq_iff (c d : CopyLine) : keyEq c d = true ↔
    c.kind = d.kind ∧ c.onum1 = d.onum1 ∧ c.onum2 = d.onum2 ∧ c.num1 = d.num1 ∧ c.num2 = d.num2 := by
  simp [keyEq, and_assoc]

/-- `c` agrees with `d` in kind, numbers and buffers. -/
structure Same (c d : CopyLine) : Prop where
  key : keyEq c d = true
  buf1 : c.buf1 = d.buf1
  buf2 : c.buf2 = d.buf2

theorem overlap_false (c : CopyLine) : overlap c = false ↔
    ¬ (c.buf1 = c.buf2 ∧ c.num1 = c.num2 ∧ c.size ≠ 0 ∧ c.off1 < c.off2 + c.size ∧
      c.off2 < c.off1 + c.size) := by
  rw [← Bool.not_eq_true]
  simp [overlap, and_assoc]

theorem elemOps_split (c : CopyLine) (a b : Nat) :
    elemOps 1 { c with size := a + b } =
      elemOps 1 { c with size := a } ++
        elemOps 1 { c with off1 := c.off1 + a, off2 := c.off2 + a, size := b } := by
  simp only [elemOps, Nat.div_one, List.range_add, List.map_append, List.map_map]
  congr 1
  apply List.map_congr_left
  intro e _
  simp [Function.comp, Nat.add_assoc]

/-- The merged line covers `c` followed upwards by `d`. -/
theorem run_fwd_step {V : Type} (f : V → V → V) (base : Int → Nat)
    (env : Nat → Line → Mem V → Mem V) (k : Nat) (c d : CopyLine) (ls : List Line) (m m' : Mem V)
    (hs : Same c d) (h1 : c.off1 + c.size = d.off1) (h2 : c.off2 + c.size = d.off2)
    (h : run f base env k (.copy { c with size := c.size + d.size } :: ls) m = some m') :
    run f base env k (.copy c :: .copy d :: ls) m = some m' := by
  obtain ⟨hk, hb1, hb2⟩ := hs
  obtain ⟨hk, ho1, ho2, hn1, hn2⟩ := (keyEq_iff c d).1 hk
  simp only [run] at h ⊢
  by_cases hov : overlap (shift base { c with size := c.size + d.size }) = true
  · rw [if_pos hov] at h; cases h
  · rw [if_neg hov] at h
    have hov' := (overlap_false _).1 (by simpa using hov)
    simp only [shift] at hov'
    have hc : ¬ overlap (shift base c) = true := by
      rw [Bool.not_eq_true, overlap_false]
      simp only [shift]
      rintro ⟨a1, a2, a3, a4, a5⟩
      exact hov' ⟨a1, a2, by omega, by omega, by omega⟩
    have hd : ¬ overlap (shift base d) = true := by
      rw [Bool.not_eq_true, overlap_false]
      simp only [shift]
      rw [← hb1, ← hb2, ← hn1, ← hn2, ← ho1, ← ho2, ← h1, ← h2]
      rintro ⟨a1, a2, a3, a4, a5⟩
      exact hov' ⟨a1, a2, by omega, by omega, by omega⟩
    rw [if_neg hc, if_neg hd, ← h]
    congr 1
    have hdec : shift base d = { (shift base c) with
        off1 := (shift base c).off1 + c.size, off2 := (shift base c).off2 + c.size, size := d.size } := by
      cases d
      simp only [shift] at *
      subst hk ho1 ho2 hn1 hn2 hb1 hb2 h1 h2
      simp [Nat.add_right_comm]
    have hsp := elemOps_split (shift base c) c.size d.size
    rw [← hdec] at hsp
    simp only [execLines, List.flatMap_cons, List.flatMap_nil, List.append_nil]
    rw [show shift base { c with size := c.size + d.size } =
      { shift base c with size := c.size + d.size } from rfl, hsp]
    simp only [execOps, List.foldl_append]
    rfl

theorem elemOps_noAlias (c : CopyLine) (h : overlap c = false) :
    ∀ o ∈ elemOps 1 c, ∀ o' ∈ elemOps 1 c, o.src ≠ o'.dst := by
  intro o ho o' ho' heq
  simp only [elemOps, List.mem_map, List.mem_range, Nat.div_one] at ho ho'
  obtain ⟨e, he, rfl⟩ := ho
  obtain ⟨e', he', rfl⟩ := ho'
  simp only [Loc.mk.injEq] at heq
  exact (overlap_false c).1 h ⟨heq.1.symm, heq.2.1.symm, by omega, by omega, by omega⟩

/-- The merged line covers `e` followed upwards by `c`, executed in the other order. -/
theorem run_bwd_step {V : Type} (f : V → V → V) (base : Int → Nat)
    (env : Nat → Line → Mem V → Mem V) (k : Nat) (c e : CopyLine) (ls : List Line) (m m' : Mem V)
    (hs : Same c e) (h1 : e.off1 + e.size = c.off1) (h2 : e.off2 + e.size = c.off2)
    (h : run f base env k
      (.copy { c with off1 := e.off1, off2 := e.off2, size := c.size + e.size } :: ls) m = some m') :
    run f base env k (.copy c :: .copy e :: ls) m = some m' := by
  obtain ⟨hk, hb1, hb2⟩ := hs
  obtain ⟨hk, ho1, ho2, hn1, hn2⟩ := (keyEq_iff c e).1 hk
  simp only [run] at h ⊢
  generalize hM : shift base { c with off1 := e.off1, off2 := e.off2, size := c.size + e.size } = M at h
  by_cases hov : overlap M = true
  · rw [if_pos hov] at h; cases h
  · rw [if_neg hov] at h
    have hovM : overlap M = false := by simpa using hov
    have hov' := (overlap_false _).1 hovM
    have eb1 : M.buf1 = c.buf1 := by rw [← hM]; rfl
    have eb2 : M.buf2 = c.buf2 := by rw [← hM]; rfl
    have en1 : M.num1 = c.num1 := by rw [← hM]; rfl
    have en2 : M.num2 = c.num2 := by rw [← hM]; rfl
    have ek : M.kind = c.kind := by rw [← hM]; rfl
    have eo1 : M.off1 = e.off1 + base c.onum1 := by rw [← hM]; rfl
    have eo2 : M.off2 = e.off2 + base c.onum2 := by rw [← hM]; rfl
    have es : M.size = c.size + e.size := by rw [← hM]; rfl
    rw [eb1, eb2, en1, en2, eo1, eo2, es] at hov'
    have hc : ¬ overlap (shift base c) = true := by
      rw [Bool.not_eq_true, overlap_false]
      simp only [shift]
      rintro ⟨a1, a2, a3, a4, a5⟩
      exact hov' ⟨a1, a2, by omega, by omega, by omega⟩
    have he : ¬ overlap (shift base e) = true := by
      rw [Bool.not_eq_true, overlap_false]
      simp only [shift]
      rw [← hb1, ← hb2, ← hn1, ← hn2, ← ho1, ← ho2]
      rintro ⟨a1, a2, a3, a4, a5⟩
      exact hov' ⟨a1, a2, by omega, by omega, by omega⟩
    rw [if_neg hc, if_neg he, ← h]
    congr 1
    have happ : execLines f 1 (execLines f 1 m [shift base c]) [shift base e] =
        execOps f m (elemOps 1 (shift base c) ++ elemOps 1 (shift base e)) := by
      simp [execLines, execOps]
    have hone : execLines f 1 m [M] = execOps f m (elemOps 1 M) := by simp [execLines]
    rw [happ, hone]
    symm
    apply execOps_congr
    · exact elemOps_noAlias M hovM
    · intro d
      rw [List.filter_append, elemOps_filter, elemOps_filter, elemOps_filter]
      have q1 : (shift base e).buf1 = c.buf1 := hb1.symm
      have q2 : (shift base e).buf2 = c.buf2 := hb2.symm
      have q3 : (shift base e).num1 = c.num1 := hn1.symm
      have q4 : (shift base e).num2 = c.num2 := hn2.symm
      have q5 : (shift base e).off1 = e.off1 + base c.onum1 := by rw [ho1]; rfl
      have q6 : (shift base e).off2 = e.off2 + base c.onum2 := by rw [ho2]; rfl
      have q7 : (shift base e).size = e.size := rfl
      have q8 : (shift base e).kind = c.kind := hk.symm
      have r1 : (shift base c).buf1 = c.buf1 := rfl
      have r2 : (shift base c).buf2 = c.buf2 := rfl
      have r3 : (shift base c).num1 = c.num1 := rfl
      have r4 : (shift base c).num2 = c.num2 := rfl
      have r5 : (shift base c).off1 = e.off1 + e.size + base c.onum1 := by rw [h1]; rfl
      have r6 : (shift base c).off2 = e.off2 + e.size + base c.onum2 := by rw [h2]; rfl
      have r7 : (shift base c).size = c.size := rfl
      have r8 : (shift base c).kind = c.kind := rfl
      rw [eb1, eb2, en1, en2, eo1, eo2, es, ek, q1, q2, q3, q4, q5, q6, q7, q8, r1, r2, r3, r4, r5,
        r6, r7, r8]
      simp only [Nat.div_one]
      generalize base c.onum1 = p1
      generalize base c.onum2 = p2
      by_cases hbn : d.buf = c.buf1 ∧ d.num = c.num1
      · obtain ⟨hb, hn⟩ := hbn
        by_cases hlo : e.off1 + p1 ≤ d.idx ∧ d.idx < e.off1 + p1 + e.size
        · rw [if_pos ⟨hb, hn, by omega, by omega⟩, if_neg (by rintro ⟨_, _, _, _⟩; omega),
            if_pos ⟨hb, hn, hlo.1, hlo.2⟩, List.nil_append]
        · by_cases hhi : e.off1 + e.size + p1 ≤ d.idx ∧ d.idx < e.off1 + e.size + p1 + c.size
          · rw [if_pos ⟨hb, hn, by omega, by omega⟩, if_pos ⟨hb, hn, hhi.1, hhi.2⟩,
              if_neg (by rintro ⟨_, _, _, _⟩; omega), List.append_nil,
              show e.off2 + p2 + (d.idx - (e.off1 + p1)) =
                e.off2 + e.size + p2 + (d.idx - (e.off1 + e.size + p1)) by omega]
          · rw [if_neg (by rintro ⟨_, _, _, _⟩; omega), if_neg (by rintro ⟨_, _, _, _⟩; omega),
              if_neg (by rintro ⟨_, _, _, _⟩; omega), List.append_nil]
      · rw [if_neg (fun h => hbn ⟨h.1, h.2.1⟩), if_neg (fun h => hbn ⟨h.1, h.2.1⟩),
          if_neg (fun h => hbn ⟨h.1, h.2.1⟩), List.append_nil]

theorem run_copy_congr {V : Type} (f : V → V → V) (base : Int → Nat)
    (env : Nat → Line → Mem V → Mem V) (k : Nat) (c : CopyLine) (ls ls' : List Line)
    (H : ∀ m m', run f base env k ls m = some m' → run f base env k ls' m = some m') (m m' : Mem V)
    (h : run f base env k (.copy c :: ls) m = some m') :
    run f base env k (.copy c :: ls') m = some m' := by
  simp only [run] at h ⊢
  split at h
  · cases h
  · rename_i ho
    rw [if_neg ho]
    exact H _ _ h

theorem AdjOK.pair {c d : CopyLine} {ls : List Line} (h : AdjOK (.copy c :: .copy d :: ls))
    (hk : keyEq c d = true) : c.buf1 = d.buf1 ∧ c.buf2 = d.buf2 ∧
      (d.off1 + c.size = c.off1 → d.off2 + c.size = c.off2 → d.size = c.size) := h.1 hk

theorem fwd_spec {V : Type} (f : V → V → V) (base : Int → Nat)
    (env : Nat → Line → Mem V → Mem V) (k : Nat) (ls : List Line) :
    ∀ (c last : CopyLine), Same c last → AdjOK (.copy last :: ls) →
      AdjOK (fwd c ls).2 ∧ (fwd c ls).2.length ≤ ls.length ∧
      ∀ m m', run f base env k (.copy (fwd c ls).1 :: (fwd c ls).2) m = some m' →
        run f base env k (.copy c :: ls) m = some m' := by
  induction ls with
  | nil => intro c last _ _; exact ⟨trivial, Nat.le_refl _, fun _ _ h => h⟩
  | cons l ls ih =>
    intro c last hs hadj
    cases l with
    | barrier => exact ⟨hadj.tail, Nat.le_refl _, fun _ _ h => h⟩
    | other a => exact ⟨hadj.tail, Nat.le_refl _, fun _ _ h => h⟩
    | copy d =>
      simp only [fwd]
      split
      · rename_i hcan
        simp only [canFwd, Bool.and_eq_true, beq_iff_eq, bne_iff_ne] at hcan
        obtain ⟨⟨⟨hkey, h1⟩, h2⟩, _⟩ := hcan
        have hld : keyEq last d = true := by
          rw [keyEq_iff] at *
          have := (keyEq_iff _ _).1 hs.key
          obtain ⟨a1, a2, a3, a4, a5⟩ := this
          obtain ⟨b1, b2, b3, b4, b5⟩ := hkey
          exact ⟨a1 ▸ b1, a2 ▸ b2, a3 ▸ b3, a4 ▸ b4, a5 ▸ b5⟩
        have hp := hadj.pair hld
        have hsd : Same c d := ⟨hkey, hs.buf1.trans hp.1, hs.buf2.trans hp.2.1⟩
        have hsd' : Same { c with size := c.size + d.size } d := ⟨hkey, hsd.buf1, hsd.buf2⟩
        obtain ⟨i1, i2, i3⟩ := ih { c with size := c.size + d.size } d hsd' hadj.tail
        refine ⟨i1, by simp only [List.length_cons]; omega, fun m m' h => ?_⟩
        exact run_fwd_step f base env k c d ls m m' hsd h1 h2 (i3 m m' h)
      · exact ⟨hadj.tail, Nat.le_refl _, fun _ _ h => h⟩

theorem bwd_spec {V : Type} (f : V → V → V) (base : Int → Nat)
    (env : Nat → Line → Mem V → Mem V) (k : Nat) (ls : List Line) :
    ∀ (c last : CopyLine), Same c last → AdjOK (.copy last :: ls) →
      last.off1 + c.size = c.off1 + last.size → last.off2 + c.size = c.off2 + last.size →
      AdjOK (bwd c (last.off1, last.off2) ls).2.2 ∧
      (bwd c (last.off1, last.off2) ls).2.2.length ≤ ls.length ∧
      ∀ m m', run f base env k (.copy { (bwd c (last.off1, last.off2) ls).1 with
          off1 := (bwd c (last.off1, last.off2) ls).2.1.1,
          off2 := (bwd c (last.off1, last.off2) ls).2.1.2 } ::
          (bwd c (last.off1, last.off2) ls).2.2) m = some m' →
        run f base env k (.copy { c with off1 := last.off1, off2 := last.off2 } :: ls) m = some m' := by
  induction ls with
  | nil => intro c last _ _ _ _; exact ⟨trivial, Nat.le_refl _, fun _ _ h => h⟩
  | cons l ls ih =>
    intro c last hs hadj hl1 hl2
    cases l with
    | barrier => exact ⟨hadj.tail, Nat.le_refl _, fun _ _ h => h⟩
    | other a => exact ⟨hadj.tail, Nat.le_refl _, fun _ _ h => h⟩
    | copy d =>
      simp only [bwd]
      split
      · rename_i hcan
        simp only [canBwd, Bool.and_eq_true, beq_iff_eq] at hcan
        obtain ⟨⟨hkey, h1⟩, h2⟩ := hcan
        have hld : keyEq last d = true := by
          rw [keyEq_iff] at *
          obtain ⟨a1, a2, a3, a4, a5⟩ := (keyEq_iff _ _).1 hs.key
          obtain ⟨b1, b2, b3, b4, b5⟩ := hkey
          exact ⟨a1 ▸ b1, a2 ▸ b2, a3 ▸ b3, a4 ▸ b4, a5 ▸ b5⟩
        have hp := hadj.pair hld
        have hsz : d.size = last.size := hp.2.2 (by omega) (by omega)
        have hsd : Same { c with off1 := last.off1, off2 := last.off2 } d :=
          ⟨hkey, hs.buf1.trans hp.1, hs.buf2.trans hp.2.1⟩
        have hsd' : Same { c with size := c.size + d.size } d := ⟨hkey, hsd.buf1, hsd.buf2⟩
        obtain ⟨i1, i2, i3⟩ := ih { c with size := c.size + d.size } d hsd' hadj.tail
          (by show d.off1 + (c.size + d.size) = c.off1 + d.size; omega)
          (by show d.off2 + (c.size + d.size) = c.off2 + d.size; omega)
        refine ⟨i1, by simp only [List.length_cons]; omega, fun m m' h => ?_⟩
        refine run_bwd_step f base env k { c with off1 := last.off1, off2 := last.off2 } d ls m m' hsd
          ?_ ?_ (i3 m m' h)
        · show d.off1 + d.size = last.off1; omega
        · show d.off2 + d.size = last.off2; omega
      · exact ⟨hadj.tail, Nat.le_refl _, fun _ _ h => h⟩

theorem same_refl (c : CopyLine) : Same c c := ⟨by simp [keyEq], rfl, rfl⟩

theorem mergeF_spec {V : Type} (f : V → V → V) (base : Int → Nat)
    (env : Nat → Line → Mem V → Mem V) (n : Nat) :
    ∀ (ls : List Line) (k : Nat), AdjOK ls → ∀ m m',
      run f base env k (mergeF n ls) m = some m' → run f base env k ls m = some m' := by
  induction n with
  | zero => intro ls k _ m m' h; exact h
  | succ n ih =>
    intro ls k hadj m m' h
    cases ls with
    | nil => exact h
    | cons l ls =>
      cases l with
      | barrier => exact ih ls (k + 1) hadj.tail _ _ h
      | other a => exact ih ls (k + 1) hadj.tail _ _ h
      | copy c =>
        simp only [mergeF] at h
        have hplain : run f base env k (.copy c :: mergeF n ls) m = some m' →
            run f base env k (.copy c :: ls) m = some m' :=
          run_copy_congr f base env k c _ _ (fun _ _ hh => ih ls k hadj.tail _ _ hh) m m'
        obtain ⟨f1, _, f3⟩ := fwd_spec f base env k ls c c (same_refl c) hadj
        obtain ⟨b1, _, b3⟩ := bwd_spec f base env k ls c c (same_refl c) hadj rfl rfl
        split at h
        · split at h
          · exact f3 m m' (run_copy_congr f base env k _ _ _ (fun _ _ hh => ih _ k f1 _ _ hh) m m' h)
          · split at h
            · exact b3 m m' (run_copy_congr f base env k _ _ _ (fun _ _ hh => ih _ k b1 _ _ hh) m m' h)
            · exact hplain h
        · exact hplain h

/-- C21: if the merged program runs (no copy between overlapping ranges), the original program runs
with the same result, for every memory content, every value of the offset variables and every
effect of the other lines.

Partial: requires `AdjOK` (see `merge_bufferKind_violated`, `merge_backward_violated`) and says
nothing when merging itself makes the ranges of a copy overlap (`merge_overlap_violated`). -/
theorem merge_partial {V : Type} (f : V → V → V) (base : Int → Nat)
    (env : Nat → Line → Mem V → Mem V) (p : List Line) (hadj : AdjOK p) (m m' : Mem V)
    (h : run f base env 0 (merge p) m = some m') : run f base env 0 p m = some m' :=
  mergeF_spec f base env p.length p 0 hadj m m' h

/-- Forward and backward merges in one program. -/
def exampleProgram : List Line :=
  [.copy ⟨.memcpy, .shmem, 0, -1, 0, .shmem, 1, -1, 0, 4⟩,
   .copy ⟨.memcpy, .shmem, 0, -1, 4, .shmem, 1, -1, 4, 2⟩,
   .barrier,
   .copy ⟨.reduce, .shmem, 0, -1, 8, .shmem, 2, -1, 8, 4⟩,
   .copy ⟨.reduce, .shmem, 0, -1, 4, .shmem, 2, -1, 4, 4⟩,
   .copy ⟨.reduce, .shmem, 0, -1, 0, .shmem, 2, -1, 0, 4⟩]

example : merge exampleProgram =
    [.copy ⟨.memcpy, .shmem, 0, -1, 0, .shmem, 1, -1, 0, 6⟩, .barrier,
     .copy ⟨.reduce, .shmem, 0, -1, 0, .shmem, 2, -1, 0, 12⟩] := by decide

example : AdjOK exampleProgram := by
  refine ⟨fun _ => ⟨rfl, rfl, ?_⟩, ⟨fun _ => ⟨rfl, rfl, ?_⟩, ⟨fun _ => ⟨rfl, rfl, ?_⟩, trivial⟩⟩⟩ <;>
    (intro h; revert h; decide)

example (m : Mem Nat) : (run (· + ·) (fun _ => 0) (fun _ _ m => m) 0 (merge exampleProgram) m).isSome = true :=
  rfl

/-! ### Violations -/

/-- The buffer kinds are not compared: a copy into the receive buffer followed by one into shared
memory becomes one copy into the receive buffer. -/
theorem merge_bufferKind_violated :
    ∃ (p : List Line) (m m1 m2 : Mem Nat),
      run (· + ·) (fun _ => 0) (fun _ _ m => m) 0 p m = some m1 ∧
      run (· + ·) (fun _ => 0) (fun _ _ m => m) 0 (merge p) m = some m2 ∧
      m1 ⟨.shmem, 0, 1⟩ ≠ m2 ⟨.shmem, 0, 1⟩ := by
  refine ⟨[.copy ⟨.memcpy, .recvbuf, 0, -1, 0, .shmem, 1, -1, 0, 1⟩,
    .copy ⟨.memcpy, .shmem, 0, -1, 1, .shmem, 1, -1, 1, 1⟩],
    fun l => if l.num = 1 then 1 else 0, _, _, rfl, rfl, by decide⟩

/-- Backward merging looks at the size of the first line only: with a shorter second line the
merged copy writes elements the original program leaves alone and misses others. -/
theorem merge_backward_violated :
    ∃ (p : List Line) (m m1 m2 : Mem Nat),
      run (· + ·) (fun _ => 0) (fun _ _ m => m) 0 p m = some m1 ∧
      run (· + ·) (fun _ => 0) (fun _ _ m => m) 0 (merge p) m = some m2 ∧
      m1 ⟨.shmem, 0, 3⟩ ≠ m2 ⟨.shmem, 0, 3⟩ := by
  refine ⟨[.copy ⟨.memcpy, .shmem, 0, -1, 2, .shmem, 1, -1, 2, 2⟩,
    .copy ⟨.memcpy, .shmem, 0, -1, 0, .shmem, 1, -1, 0, 1⟩],
    fun l => if l.num = 1 then 1 else 0, _, _, rfl, rfl, by decide⟩

/-- Merging can make source and destination of a copy overlap although they do not in the original
lines. -/
theorem merge_overlap_violated :
    ∃ (p : List Line), AdjOK p ∧ ∀ (m : Mem Nat),
      (run (· + ·) (fun _ => 0) (fun _ _ m => m) 0 p m).isSome = true ∧
      run (· + ·) (fun _ => 0) (fun _ _ m => m) 0 (merge p) m = none := by
  refine ⟨[.copy ⟨.memcpy, .shmem, 0, -1, 3, .shmem, 0, -1, 0, 2⟩,
    .copy ⟨.memcpy, .shmem, 0, -1, 5, .shmem, 0, -1, 2, 2⟩], ⟨fun _ => ⟨rfl, rfl, ?_⟩, trivial⟩,
    fun m => ⟨rfl, rfl⟩⟩
  intro h; revert h; decide

end ExtMpi.Merge
