import Verif.Lemmas.TasksAssemble
import Verif.Props.RawCode
/-! Copy-in and copy-out of a gather operation by several processes. -/
namespace ExtMpi.TasksNode
open RawCode Schedule RankPerm

variable {X : Type} [Add X]

theorem exec_out (is : List Instr) (m : Mem X) (r : Reg) (i : Nat)
    (h : ∀ red dst src n, .copy red dst src n ∈ is → ¬(r = dst.reg ∧ dst.off ≤ i ∧ i < dst.off + n)) :
    is.foldl exec1 m r i = m r i := by
  induction is generalizing m with
  | nil => rfl
  | cons j is ih =>
    rw [List.foldl_cons, ih _ fun red dst src n hm => h red dst src n (List.mem_cons_of_mem _ hm)]
    cases j with
    | copy red dst src n =>
      show copyMem red dst src n m r i = m r i
      unfold copyMem
      rw [if_neg (h red dst src n List.mem_cons_self)]
    | _ => rfl

/-! ## Copy-in -/

/-- Copy-in of process `r` of a node, with its addresses. -/
def inOf (cnt : Nat → Nat) (u : Users) (ns a base r : Nat) : List Instr :=
  copyIf false ⟨.shm 0, iodispl ns cnt a r + base⟩ ⟨.send, u.send (a * ns + r) + 0⟩ (cnt (a * ns + r))

theorem iodispl_lo (ns : Nat) (cnt : Nat → Nat) (a r : Nat) : iodispl ns cnt a r = lo (fun r => cnt (a * ns + r)) r := rfl
theorem coarse_lo (ns : Nat) (cnt : Nat → Nat) (a : Nat) : coarse ns cnt a = lo (fun r => cnt (a * ns + r)) ns := rfl

theorem mem_inOf {cnt : Nat → Nat} {u : Users} {ns a base r : Nat} {i : Instr} (h : i ∈ inOf cnt u ns a base r) :
    i = .copy false ⟨.shm 0, lo (fun r => cnt (a * ns + r)) r + base⟩ ⟨.send, u.send (a * ns + r)⟩ (cnt (a * ns + r)) :=
  TasksNode.mem_copyIf h

theorem in_free (cnt : Nat → Nat) (u : Users) (ns a base : Nat) : mfree (perProc ns (inOf cnt u ns a base)) := by
  apply perProc_free
  intro r r' _ _ hne i i' hi hi'
  rw [mem_inOf hi, mem_inOf hi']
  have hov : ∀ r r', r < r' → lo (fun r => cnt (a * ns + r)) r + cnt (a * ns + r) ≤ lo (fun r => cnt (a * ns + r)) r' :=
    fun r r' h => lo_end (fun r => cnt (a * ns + r)) h
  rintro (⟨x, y, hx, hy, ho⟩ | ⟨x, y, hx, hy, ho⟩)
  · rw [writes, List.mem_singleton] at hx
    subst hx
    rcases List.mem_append.1 hy with hy | hy
    · rw [writes, List.mem_singleton] at hy
      subst hy
      obtain ⟨_, h1, h2⟩ := ho
      dsimp only at h1 h2
      rcases Nat.lt_or_gt_of_ne hne with h | h
      · have := hov r r' h; omega
      · have := hov r' r h; omega
    · rw [reads, List.mem_singleton] at hy
      subst hy
      cases ho.1
  · rw [reads, List.mem_singleton] at hx
    rw [writes, List.mem_singleton] at hy
    subst hx hy
    cases ho.1

theorem in_copies (cnt : Nat → Nat) (u : Users) (ns a base : Nat) : Copies ns (perProc ns (inOf cnt u ns a base)) := by
  apply perProc_copies
  intro r i hi
  rw [mem_inOf hi]
  refine ⟨⟨_, _, _, _, rfl⟩, ?_⟩
  rintro ⟨h, _⟩
  cases h

/-- Memory after the copy-in of the first processes. -/
theorem in_spec (cnt : Nat → Nat) (u : Users) (ns a base : Nat) (m : Mem X) : ∀ K, K ≤ ns →
    (∀ r j, r < K → j < cnt (a * ns + r) →
      ((List.range K).flatMap (inOf cnt u ns a base)).foldl exec1 m (.shm 0) (base + (iodispl ns cnt a r + j)) =
        m .send (u.send (a * ns + r) + j)) ∧
    (∀ i, ¬(base ≤ i ∧ i < base + iodispl ns cnt a K) →
      ((List.range K).flatMap (inOf cnt u ns a base)).foldl exec1 m (.shm 0) i = m (.shm 0) i) ∧
    ∀ g, g ≠ .shm 0 → ((List.range K).flatMap (inOf cnt u ns a base)).foldl exec1 m g = m g := by
  intro K
  induction K with
  | zero => intro _; exact ⟨fun _ _ h => by omega, fun _ _ => rfl, fun _ _ => rfl⟩
  | succ K ih =>
    intro hK
    obtain ⟨h1, h2, h3⟩ := ih (by omega)
    rw [List.range_succ, List.flatMap_append, List.flatMap_singleton, List.foldl_append]
    obtain ⟨M, hM⟩ : ∃ M, M = ((List.range K).flatMap (inOf cnt u ns a base)).foldl exec1 m := ⟨_, rfl⟩
    rw [← hM] at h1 h2 h3 ⊢
    have hs : iodispl ns cnt a (K + 1) = iodispl ns cnt a K + cnt (a * ns + K) := lo_succ (fun r => cnt (a * ns + r)) K
    unfold inOf
    rw [exec_copyIf]
    refine ⟨fun r j hr hj => ?_, fun i hi => ?_, fun g hg => ?_⟩
    · by_cases e : r = K
      · subst e
        unfold copyMem
        rw [if_pos ⟨rfl, by dsimp only; omega, by dsimp only; omega⟩, if_neg (by simp), h3 _ (by intro h; cases h)]
        dsimp only
        congr 1
        omega
      · have hle : iodispl ns cnt a r + cnt (a * ns + r) ≤ iodispl ns cnt a K :=
          lo_end (fun r => cnt (a * ns + r)) (show r < K by omega)
        unfold copyMem
        rw [if_neg (by dsimp only; omega), h1 r j (by omega) hj]
    · unfold copyMem
      rw [if_neg (by dsimp only; omega), h2 i (by omega)]
    · funext i
      unfold copyMem
      rw [if_neg (fun h => hg h.1), h3 g hg]

/-! ## Copy-out -/

theorem overlapp_le (a b c d : Nat) (h : 0 < (overlapp a b c d).2) : (overlapp a b c d).1 + (overlapp a b c d).2 ≤ b := by
  unfold overlapp at *
  dsimp only at *
  split_ifs at * <;> omega

/-- The copies of a copy-out. -/
theorem mem_copyOutAll {sz : Nat → Nat} {N : Nat} (ls : Block) (hl : ∀ l, l ∈ ls → l.frac < N) : ∀ add i,
    i ∈ copyOutAll sz (moffset sz N) add ls →
      ∃ d s n, i = .copy false ⟨.recv, d⟩ ⟨.shm 0, s⟩ n ∧ d + n ≤ moffset sz N ∧ 0 < n := by
  induction ls with
  | nil => intro add i h; cases h
  | cons l ls ih =>
    intro add i h
    rw [copyOutAll] at h
    rcases List.mem_append.1 h with h | h
    · split at h
      · dsimp only at h
        have h0 : 0 < (overlapp 0 (moffset sz N) (moffset sz l.frac) (moffset sz (l.frac + 1))).2 := by
          unfold copyIf at h
          split at h
          · cases h
          · omega
        refine ⟨_, _, _, TasksNode.mem_copyIf h, ?_, h0⟩
        exact overlapp_le _ _ _ _ h0
      · cases h
    · exact ih (fun l' h' => hl l' (List.mem_cons_of_mem _ h')) _ i h

/-- A receive buffer at address `c` seen from its process. -/
def view (c : Nat) (m : Mem X) : Mem X := fun r i => if r = .recv then m r (c + i) else m r i

theorem view_exec (u : Users) (t : Nat) (is : List Instr)
    (h : ∀ i, i ∈ is → ∃ d s n, i = .copy false ⟨.recv, d⟩ ⟨.shm 0, s⟩ n) : ∀ m : Mem X,
    view (u.recv t) ((is.map (placed u t)).foldl exec1 m) = is.foldl exec1 (view (u.recv t) m) := by
  induction is with
  | nil => intro m; rfl
  | cons i is ih =>
    intro m
    rw [List.map_cons, List.foldl_cons, List.foldl_cons, ih (fun j hj => h j (List.mem_cons_of_mem _ hj))]
    congr 1
    obtain ⟨d, s, n, rfl⟩ := h i List.mem_cons_self
    funext r k
    show view (u.recv t) (copyMem false ⟨.recv, u.recv t + d⟩ ⟨.shm 0, s⟩ n m) r k = copyMem false ⟨.recv, d⟩ ⟨.shm 0, s⟩ n _ r k
    by_cases hr : r = .recv
    · subst hr
      have e1 : ∀ A : Mem X, view (u.recv t) A .recv k = A .recv (u.recv t + k) := fun A => if_pos rfl
      rw [e1]
      by_cases hk : d ≤ k ∧ k < d + n
      · have L : copyMem false ⟨.recv, u.recv t + d⟩ ⟨.shm 0, s⟩ n m .recv (u.recv t + k) = m (.shm 0) (s + (k - d)) := by
          unfold copyMem
          rw [if_pos ⟨rfl, by dsimp only; omega, by dsimp only; omega⟩, if_neg (by simp)]
          dsimp only
          congr 2
          omega
        have R : copyMem false ⟨.recv, d⟩ ⟨.shm 0, s⟩ n (view (u.recv t) m) .recv k = m (.shm 0) (s + (k - d)) := by
          unfold copyMem
          rw [if_pos ⟨rfl, hk⟩, if_neg (by simp)]
          exact if_neg (by intro h; cases h)
        rw [L, R]
      · unfold copyMem
        rw [if_neg (fun h => hk ⟨by have := h.2.1; dsimp only at this; omega, by have := h.2.2; dsimp only at this; omega⟩),
          if_neg (fun h => hk h.2), e1]
    · have e1 : ∀ A : Mem X, view (u.recv t) A r k = A r k := fun A => if_neg hr
      rw [e1]
      unfold copyMem
      rw [if_neg (fun h => hr h.1), if_neg (fun h => hr h.1), e1]

/-- Copy-out of process `r` of a node, with its addresses. -/
def outOf (u : Users) (ns a : Nat) (is : List Instr) (r : Nat) : List Instr := is.map (placed u (a * ns + r))

/-- Memory after the copy-out of the first processes. -/
theorem out_spec {ns : Nat} {u : Users} {len : Nat} (hA : Apart ns u len) (a : Nat) (hns : 0 < ns) (is : List Instr)
    (h : ∀ i, i ∈ is → ∃ d s n, i = .copy false ⟨.recv, d⟩ ⟨.shm 0, s⟩ n ∧ d + n ≤ len ∧ 0 < n) (m : Mem X) : ∀ K, K ≤ ns →
    (∀ r i, r < K → i < len → ((List.range K).flatMap (outOf u ns a is)).foldl exec1 m .recv (u.recv (a * ns + r) + i) =
      is.foldl exec1 (view (u.recv (a * ns + r)) m) .recv i) ∧
    (∀ e, (∀ r, r < K → ¬(u.recv (a * ns + r) ≤ e ∧ e < u.recv (a * ns + r) + len)) →
      ((List.range K).flatMap (outOf u ns a is)).foldl exec1 m .recv e = m .recv e) ∧
    ∀ g, g ≠ .recv → ((List.range K).flatMap (outOf u ns a is)).foldl exec1 m g = m g := by
  -- one process
  have one : ∀ (r : Nat) (M : Mem X),
      (∀ e, ¬(u.recv (a * ns + r) ≤ e ∧ e < u.recv (a * ns + r) + len) → (outOf u ns a is r).foldl exec1 M .recv e = M .recv e) ∧
      ∀ g, g ≠ .recv → (outOf u ns a is r).foldl exec1 M g = M g := by
    intro r M
    refine ⟨fun e he => ?_, fun g hg => funext fun i => ?_⟩
    · apply exec_out
      rintro red dst src n hm ⟨_, h2, h3⟩
      obtain ⟨i, hi, e'⟩ := List.mem_map.1 hm
      obtain ⟨d, s, k, rfl, h4, _⟩ := h i hi
      cases e'
      dsimp only [place] at h2 h3
      omega
    · apply exec_out
      rintro red dst src n hm ⟨h1, h2, h3⟩
      obtain ⟨i, hi, e'⟩ := List.mem_map.1 hm
      obtain ⟨d, s, k, rfl, h4⟩ := h i hi
      cases e'
      exact hg h1
  -- the effect depends only on the scratch memory and the own buffer
  have cong : ∀ (r : Nat) (M : Mem X), (∀ g, g ≠ .recv → M g = m g) →
      (∀ i, i < len → M .recv (u.recv (a * ns + r) + i) = m .recv (u.recv (a * ns + r) + i)) → ∀ i, i < len →
      is.foldl exec1 (view (u.recv (a * ns + r)) M) .recv i = is.foldl exec1 (view (u.recv (a * ns + r)) m) .recv i := by
    intro r M h1 h2
    have gen : ∀ (is : List Instr), (∀ i, i ∈ is → ∃ d s n, i = .copy false ⟨.recv, d⟩ ⟨.shm 0, s⟩ n ∧ d + n ≤ len ∧ 0 < n) →
        ∀ A B : Mem X, (∀ g, g ≠ .recv → A g = B g) → (∀ i, i < len → A .recv i = B .recv i) →
        ∀ i, i < len → is.foldl exec1 A .recv i = is.foldl exec1 B .recv i := by
      intro is
      induction is with
      | nil => intro _ A B _ hB; exact hB
      | cons j is ih =>
        intro hj A B hA hB i hi
        rw [List.foldl_cons, List.foldl_cons]
        obtain ⟨d, s, n, rfl, hd, _⟩ := hj j List.mem_cons_self
        refine ih (fun j' h' => hj j' (List.mem_cons_of_mem _ h')) _ _ (fun g hg => ?_) (fun k hk => ?_) i hi
        · funext k
          show copyMem _ _ _ _ _ _ _ = copyMem _ _ _ _ _ _ _
          unfold copyMem
          rw [if_neg (fun h => hg h.1), if_neg (fun h => hg h.1), hA g hg]
        · show copyMem _ _ _ _ _ _ _ = copyMem _ _ _ _ _ _ _
          unfold copyMem
          rw [hA (.shm 0) (by intro h; cases h), hB k hk]
    exact gen is h _ _ (fun g hg => by funext i; simp only [view]; rw [if_neg hg, if_neg hg, h1 g hg])
      (fun i hi => by simp only [view]; exact h2 i hi)
  have apart : ∀ r r', r < ns → r' < ns → r ≠ r' → ∀ i, i < len →
      ¬(u.recv (a * ns + r) ≤ u.recv (a * ns + r') + i ∧ u.recv (a * ns + r') + i < u.recv (a * ns + r) + len) := by
    intro r r' hr hr' hne i hi hh
    refine hA (a * ns + r) (a * ns + r') (by omega) ?_ ⟨rfl, ?_, ?_⟩
    · rw [proc_div hr, proc_div hr']
    · dsimp only; omega
    · dsimp only; omega
  intro K
  induction K with
  | zero => intro _; exact ⟨fun _ _ h => by omega, fun _ _ => rfl, fun _ _ => rfl⟩
  | succ K ih =>
    intro hK
    obtain ⟨h1, h2, h3⟩ := ih (by omega)
    rw [List.range_succ, List.flatMap_append, List.flatMap_singleton, List.foldl_append]
    obtain ⟨M, hM⟩ : ∃ M, M = ((List.range K).flatMap (outOf u ns a is)).foldl exec1 m := ⟨_, rfl⟩
    rw [← hM] at h1 h2 h3 ⊢
    obtain ⟨o1, o2⟩ := one K M
    refine ⟨fun r i hr hi => ?_, fun e he => ?_, fun g hg => ?_⟩
    · by_cases e : r = K
      · subst e
        have hv := congrFun (congrFun (view_exec u (a * ns + r) is (fun i hi => by
          obtain ⟨d, s, n, e, _⟩ := h i hi; exact ⟨d, s, n, e⟩) M) .recv) i
        have hl : view (u.recv (a * ns + r)) ((is.map (placed u (a * ns + r))).foldl exec1 M) .recv i =
          (outOf u ns a is r).foldl exec1 M .recv (u.recv (a * ns + r) + i) := by simp [view, outOf]
        rw [← hl, hv]
        exact cong r M h3 (fun i hi => h2 _ fun r' hr' => apart r' r (by omega) (by omega) (by omega) i hi) i hi
      · rw [o1 _ (apart K r (by omega) (by omega) (Ne.symm e) i hi), h1 r i (by omega) hi]
    · rw [o1 e (he K (by omega)), h2 e fun r hr => he r (by omega)]
    · rw [o2 g hg, h3 g hg]

theorem mem_outOf {u : Users} {ns a : Nat} {is : List Instr} {len : Nat}
    (h : ∀ i, i ∈ is → ∃ d s n, i = .copy false ⟨.recv, d⟩ ⟨.shm 0, s⟩ n ∧ d + n ≤ len ∧ 0 < n) {r : Nat} {i : Instr}
    (hi : i ∈ outOf u ns a is r) :
    ∃ d s n, i = .copy false ⟨.recv, u.recv (a * ns + r) + d⟩ ⟨.shm 0, s⟩ n ∧ d + n ≤ len ∧ 0 < n := by
  obtain ⟨j, hj, rfl⟩ := List.mem_map.1 hi
  obtain ⟨d, s, n, rfl, h1⟩ := h j hj
  exact ⟨d, s, n, rfl, h1⟩

theorem out_copies {u : Users} {ns a : Nat} {is : List Instr} {len : Nat}
    (h : ∀ i, i ∈ is → ∃ d s n, i = .copy false ⟨.recv, d⟩ ⟨.shm 0, s⟩ n ∧ d + n ≤ len ∧ 0 < n) :
    Copies ns (perProc ns (outOf u ns a is)) := by
  apply perProc_copies
  intro r i hi
  obtain ⟨d, s, n, rfl, _⟩ := mem_outOf h hi
  refine ⟨⟨_, _, _, _, rfl⟩, ?_⟩
  rintro ⟨h, _⟩
  cases h

theorem out_free {ns : Nat} {u : Users} {len : Nat} (hA : Apart ns u len) (a : Nat) {is : List Instr}
    (h : ∀ i, i ∈ is → ∃ d s n, i = .copy false ⟨.recv, d⟩ ⟨.shm 0, s⟩ n ∧ d + n ≤ len ∧ 0 < n) :
    mfree (perProc ns (outOf u ns a is)) := by
  apply perProc_free
  intro r r' hr hr' hne i i' hi hi'
  obtain ⟨d, s, n, rfl, h1, h2⟩ := mem_outOf h hi
  obtain ⟨d', s', n', rfl, h1', h2'⟩ := mem_outOf h hi'
  rintro (⟨x, y, hx, hy, ho⟩ | ⟨x, y, hx, hy, ho⟩)
  · rw [writes, List.mem_singleton] at hx
    subst hx
    rcases List.mem_append.1 hy with hy | hy
    · rw [writes, List.mem_singleton] at hy
      subst hy
      obtain ⟨_, g1, g2⟩ := ho
      dsimp only at g1 g2
      exact hA (a * ns + r) (a * ns + r') (by omega) (by rw [proc_div hr, proc_div hr'])
        ⟨rfl, by dsimp only; omega, by dsimp only; omega⟩
    · rw [reads, List.mem_singleton] at hy
      subst hy
      cases ho.1
  · rw [reads, List.mem_singleton] at hx
    rw [writes, List.mem_singleton] at hy
    subst hx hy
    cases ho.1

end ExtMpi.TasksNode
