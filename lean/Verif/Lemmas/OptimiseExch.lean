import Verif.Lemmas.RawCodeBlocks
/-! # Exchange of messages without packing -/
namespace ExtMpi.RawCode

variable {X : Type} [Add X]

/-- Pending messages with the partners `D`. -/
def pend (D : List Nat) (a : Nat → Addr) (n : Nat → Nat) : Nat → List (Addr × Nat) := fun q =>
  if q ∈ D then [(a q, n q)] else []

theorem mem_pend {D : List Nat} {a : Nat → Addr} {n : Nat → Nat} {q : Nat} {x : Addr × Nat} (h : x ∈ pend D a n q) :
    q ∈ D ∧ x = (a q, n q) := by
  unfold pend at h
  split at h
  · exact ⟨‹_›, List.mem_singleton.1 h⟩
  · cases h

theorem push_pend (D : List Nat) (a : Nat → Addr) (n : Nat → Nat) (q : Nat) (h : q ∉ D) :
    push (pend D a n) q (a q, n q) = pend (D ++ [q]) a n := by
  funext k
  unfold push pend
  by_cases e : k = q
  · subst e; simp [h]
  · simp [e]

theorem run_irecvs (a : Nat → Addr) (n : Nat → Nat) (L : List Nat) :
    ∀ (D : List Nat) (R : List Instr) (m : Mem X), (D ++ L).Nodup →
      (∀ q q', q ∈ D ++ L → q' ∈ D ++ L → q ≠ q' → ¬overlap (a q) (n q) (a q') (n q')) →
      LRun ⟨(L.map fun q => .irecv (a q) (n q) q) ++ R, m, pend D a n, fun _ => []⟩
        ⟨R, m, pend (D ++ L) a n, fun _ => []⟩ := by
  induction L with
  | nil => intro D R m _ _; rw [List.append_nil]; exact .refl
  | cons q L ih =>
    intro D R m hn ho
    have hq : q ∉ D := by
      intro h
      rw [List.nodup_append] at hn
      exact hn.2.2 q h q List.mem_cons_self rfl
    have e : D ++ q :: L = (D ++ [q]) ++ L := by simp
    rw [e] at hn ho ⊢
    refine .step (.irecv rfl ?_ ?_) ?_
    · intro q' x hx
      obtain ⟨h1, rfl⟩ := mem_pend hx
      exact ho q' q (by simp [h1]) (by simp) fun e => hq (e ▸ h1)
    · intro q' x hx; cases hx
    · dsimp only
      rw [push_pend D a n q hq]
      exact ih (D ++ [q]) R m hn ho

theorem run_isends (b : Nat → Addr) (k : Nat → Nat) (rs : Nat → List (Addr × Nat)) (L : List Nat) :
    ∀ (D : List Nat) (R : List Instr) (m : Mem X), (D ++ L).Nodup →
      (∀ q q' x, x ∈ rs q → q' ∈ L → ¬overlap x.1 x.2 (b q') (k q')) →
      LRun ⟨(L.map fun q => .isend (b q) (k q) q) ++ R, m, rs, pend D b k⟩
        ⟨R, m, rs, pend (D ++ L) b k⟩ := by
  induction L with
  | nil => intro D R m _ _; rw [List.append_nil]; exact .refl
  | cons q L ih =>
    intro D R m hn ho
    have hq : q ∉ D := by
      intro h
      rw [List.nodup_append] at hn
      exact hn.2.2 q h q List.mem_cons_self rfl
    have e : D ++ q :: L = (D ++ [q]) ++ L := by simp
    rw [e] at hn ⊢
    refine .step (.isend rfl ?_) ?_
    · intro q' x hx
      exact ho q' q x hx List.mem_cons_self
    · dsimp only
      rw [push_pend D b k q hq]
      exact ih (D ++ [q]) R m hn fun q1 q2 x hx h => ho q1 q2 x hx (List.mem_cons_of_mem _ h)

theorem run_mid (rs ss : Nat → List (Addr × Nat)) (is : List Instr) :
    ∀ (R : List Instr) (m : Mem X),
      (∀ i, i ∈ is → ∃ r d s n, i = .copy r d s n ∧ ¬overlap d n s n ∧
        (∀ q x, x ∈ rs q → ¬overlap x.1 x.2 d n ∧ ¬overlap x.1 x.2 s n) ∧ ∀ q x, x ∈ ss q → ¬overlap x.1 x.2 d n) →
      LRun ⟨is ++ R, m, rs, ss⟩ ⟨R, is.foldl exec1 m, rs, ss⟩ := by
  induction is with
  | nil => intro R m _; exact .refl
  | cons i is ih =>
    intro R m h
    obtain ⟨r, d, s, n, rfl, h1, h2, h3⟩ := h i List.mem_cons_self
    refine .step (.copy rfl h1 (fun q x hx => (h2 q x hx).1) h3 fun q x hx => (h2 q x hx).2) ?_
    exact ih R _ fun i hi => h i (List.mem_cons_of_mem _ hi)

/-- The messages of one step: process `t` receives from `Lr t` at the addresses `ra t`, sends to `Ls t` from the addresses
`sa t`, and performs the copies `mid t` meanwhile. -/
structure Msgs (N : Nat) (Lr Ls : Nat → List Nat) (ra sa : Nat → Nat → Addr) (sz : Nat → Nat → Nat)
    (mid : Nat → List Instr) : Prop where
  rnd : ∀ t, t < N → (Lr t).Nodup
  snd : ∀ t, t < N → (Ls t).Nodup
  rlt : ∀ t q, t < N → q ∈ Lr t → q < N ∧ q ≠ t
  slt : ∀ t q, t < N → q ∈ Ls t → q < N ∧ q ≠ t
  pair : ∀ q t, q < N → t < N → (t ∈ Ls q ↔ q ∈ Lr t)
  rr : ∀ t q q', t < N → q ∈ Lr t → q' ∈ Lr t → q ≠ q' → ¬overlap (ra t q) (sz q t) (ra t q') (sz q' t)
  rs : ∀ t q q', t < N → q ∈ Lr t → q' ∈ Ls t → ¬overlap (ra t q) (sz q t) (sa t q') (sz t q')
  mid : ∀ t i, t < N → i ∈ mid t → ∃ r d s n, i = .copy r d s n ∧ ¬overlap d n s n ∧
    (∀ q, q ∈ Lr t → ¬overlap (ra t q) (sz q t) d n ∧ ¬overlap (ra t q) (sz q t) s n) ∧
    ∀ q, q ∈ Ls t → ¬overlap (sa t q) (sz t q) d n

/-- The copies do not change what they do not write. -/
theorem foldl_keep (is : List Instr) (r : Reg) (i : Nat) (m : Mem X)
    (h : ∀ x, x ∈ is → ∃ c d s n, x = .copy c d s n ∧ ¬inside r i d n) : is.foldl exec1 m r i = m r i := by
  induction is generalizing m with
  | nil => rfl
  | cons x is ih =>
    obtain ⟨c, d, s, n, rfl, h1⟩ := h x List.mem_cons_self
    rw [List.foldl_cons, ih _ fun y hy => h y (List.mem_cons_of_mem _ hy)]
    exact copyMem_out _ _ _ _ _ _ _ h1

/-- One step of communication. -/
theorem exchange_run {N : Nat} {Lr Ls : Nat → List Nat} {ra sa : Nat → Nat → Addr} {sz : Nat → Nat → Nat}
    {mid : Nat → List Instr} (h : Msgs N Lr Ls ra sa sz mid) (S : State X) (R : Nat → List Instr) (m : Nat → Mem X)
    (hS : Quiet N S (fun t => ((Lr t).map fun q => .irecv (ra t q) (sz q t) q) ++
      (((Ls t).map fun q => .isend (sa t q) (sz t q) q) ++ (mid t ++ .waitall :: R t))) m) :
    ∃ S' m', Reach N S S' ∧ Quiet N S' R m' ∧
      (∀ t, t < N → ∀ q, q ∈ Lr t → ∀ i, i < sz q t →
        m' t (ra t q).reg ((ra t q).off + i) = m q (sa q t).reg ((sa q t).off + i)) ∧
      ∀ t, t < N → ∀ r i, (∀ q, q ∈ Lr t → ¬inside r i (ra t q) (sz q t)) →
        m' t r i = (mid t).foldl exec1 (m t) r i := by
  obtain ⟨rs, hrs⟩ : ∃ rs : Nat → Nat → List (Addr × Nat), rs = fun t => pend (Lr t) (ra t) fun q => sz q t := ⟨_, rfl⟩
  obtain ⟨ss, hss⟩ : ∃ ss : Nat → Nat → List (Addr × Nat), ss = fun t => pend (Ls t) (sa t) fun q => sz t q := ⟨_, rfl⟩
  obtain ⟨m1, hm1⟩ : ∃ m1 : Nat → Mem X, m1 = fun t => (mid t).foldl exec1 (m t) := ⟨_, rfl⟩
  have hA : ∀ t, t < N → LRun (S.proc t) ⟨.waitall :: R t, m1 t, rs t, ss t⟩ := by
    intro t ht
    rw [hS.proc t ht]
    have h1 := run_irecvs (X := X) (ra t) (fun q => sz q t) (Lr t) [] (((Ls t).map fun q => .isend (sa t q) (sz t q) q) ++
      (mid t ++ .waitall :: R t)) (m t) (by rw [List.nil_append]; exact h.rnd t ht)
      (fun q q' hq hq' hne => by rw [List.nil_append] at hq hq'; exact h.rr t q q' ht hq hq' hne)
    have h2 := run_isends (X := X) (sa t) (fun q => sz t q) (rs t) (Ls t) [] (mid t ++ .waitall :: R t) (m t)
      (by rw [List.nil_append]; exact h.snd t ht) (fun q q' x hx hq' => by
        rw [hrs] at hx
        obtain ⟨h1, rfl⟩ := mem_pend hx
        exact h.rs t q q' ht h1 hq')
    have h3 := run_mid (X := X) (rs t) (ss t) (mid t) (.waitall :: R t) (m t) (fun i hi => by
      obtain ⟨r, d, s, n, e, g1, g2, g3⟩ := h.mid t i ht hi
      refine ⟨r, d, s, n, e, g1, fun q x hx => ?_, fun q x hx => ?_⟩
      · rw [hrs] at hx
        obtain ⟨h1, rfl⟩ := mem_pend hx
        exact g2 q h1
      · rw [hss] at hx
        obtain ⟨h1, rfl⟩ := mem_pend hx
        exact g3 q h1)
    rw [List.nil_append] at h1 h2
    rw [hrs] at h2 h3 ⊢
    rw [hss] at h3 ⊢
    rw [hm1]
    exact (h1.trans h2).trans h3
  obtain ⟨S1, a1, a2, a3⟩ := lift_all S (fun t => ⟨.waitall :: R t, m1 t, rs t, ss t⟩) hA
  have hsep : ∀ t, t < N → Sep (S1.proc t) := by
    intro t ht
    rw [a3 t ht]
    refine (hA t ht).sep ?_
    rw [hS.proc t ht]
    exact ⟨fun _ _ _ _ h => absurd h List.not_mem_nil, fun _ _ _ _ _ h => absurd h List.not_mem_nil⟩
  have hpair : Paired N S1 := by
    intro q t hq ht hne
    rw [a3 q hq, a3 t ht]
    dsimp only
    rw [hrs, hss]
    dsimp only [pend]
    by_cases g : q ∈ Lr t
    · right
      rw [if_pos ((h.pair q t hq ht).2 g), if_pos g]
      exact ⟨_, _, _, rfl, rfl⟩
    · left
      rw [if_neg fun g' => g ((h.pair q t hq ht).1 g'), if_neg g]
      exact ⟨rfl, rfl⟩
  obtain ⟨S2, b1, b2⟩ := exchange S1 hpair hsep (fun t ht => ⟨_, by rw [a3 t ht]⟩) fun q t => by rw [a2]; exact hS.chan q t
  obtain ⟨m2, hm2⟩ : ∃ m2 : Nat → Mem X, m2 = fun t => (S2.proc t).mem := ⟨_, rfl⟩
  have hproc2 : ∀ t, t < N → S2.proc t = ⟨.waitall :: R t, m2 t, fun _ => [], fun _ => []⟩ := by
    intro t ht
    have e1 := b2.rest t ht
    rw [a3 t ht] at e1
    have e2 : (S2.proc t).recvs = fun _ => [] := by
      funext q
      by_cases hq : q = t ∨ N ≤ q
      · rw [(b2.own t q ht hq).1, a3 t ht]
        dsimp only
        rw [hrs]
        exact if_neg fun g => by
          have := h.rlt t q ht g
          omega
      · exact (b2.done q t (by omega) ht (by omega) trivial).2
    have e3 : (S2.proc t).sends = fun _ => [] := by
      funext q
      by_cases hq : q = t ∨ N ≤ q
      · rw [(b2.own t q ht hq).2, a3 t ht]
        dsimp only
        rw [hss]
        exact if_neg fun g => by
          have := h.slt t q ht g
          omega
      · exact (b2.done t q ht (by omega) (by omega) trivial).1
    cases hp : S2.proc t with
    | mk a b c d =>
      rw [hp] at e1 e2 e3
      dsimp only at e1 e2 e3
      rw [e1, e2, e3, hm2]
      dsimp only
      rw [hp]
  obtain ⟨S3, c1, c2, c3⟩ := lift_all S2 (fun t => ⟨R t, m2 t, fun _ => [], fun _ => []⟩) (by
    intro t ht
    rw [hproc2 t ht]
    exact .step (.waitall rfl fun _ => ⟨rfl, rfl⟩) .refl)
  refine ⟨S3, m2, (a1.trans b1).trans c1, ⟨fun q t => by rw [c2]; exact b2.chan q t, c3⟩, fun t ht q hq i hi => ?_,
    fun t ht r i hr => ?_⟩
  · obtain ⟨hqN, hne⟩ := h.rlt t q ht hq
    have htm : t ∈ Ls q := (h.pair q t hqN ht).2 hq
    have hd := b2.data q t (sa q t) (ra t q) (sz q t) hqN ht hne trivial (by
        rw [a3 q hqN, hss]
        exact if_pos htm) (by
        rw [a3 t ht, hrs]
        exact if_pos hq) i hi
    rw [hm2]
    dsimp only
    rw [hd, a3 q hqN, hm1]
    apply foldl_keep
    intro x hx
    obtain ⟨c, d, s, n, e, _, _, g⟩ := h.mid q x hqN hx
    refine ⟨c, d, s, n, e, fun hin => ?_⟩
    refine g t htm ⟨hin.1, ?_, ?_⟩
    · have := hin.2.2; omega
    · have := hin.2.1; omega
  · rw [hm2]
    dsimp only
    rw [b2.keep t r i ht (by
      intro q x hx
      rw [a3 t ht, hrs] at hx
      dsimp only at hx
      obtain ⟨h1, rfl⟩ := mem_pend hx
      exact hr q h1), a3 t ht, hm1]

end ExtMpi.RawCode
