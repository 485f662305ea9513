import Verif.Lemmas.RawCodeBlock
/-! # Execution of the code of all blocks -/
namespace ExtMpi.RawCode
open Schedule

variable {X : Type} [Add X]

/-- Nothing is pending; process `t` has the program `prog t` in front of it and the memory `m t`. -/
structure Quiet (N : Nat) (s : State X) (prog : Nat → List Instr) (m : Nat → Mem X) : Prop where
  chan : ∀ q t, s.chan q t = []
  proc : ∀ t, t < N → s.proc t = ⟨prog t, m t, fun _ => [], fun _ => []⟩

theorem quiet_initial (N : Nat) (prog : Nat → List Instr) (m : Nat → Mem X) : Quiet N (initial prog m) prog m :=
  ⟨fun _ _ => rfl, fun _ _ => rfl⟩

theorem Quiet.congr {N : Nat} {s : State X} {prog prog' : Nat → List Instr} {m : Nat → Mem X}
    (h : Quiet N s prog m) (e : ∀ t, t < N → prog t = prog' t) : Quiet N s prog' m :=
  ⟨h.chan, fun t ht => by rw [h.proc t ht, e t ht]⟩

/-- Local copies on all processes. -/
theorem Quiet.copies {N : Nat} {s : State X} {is R : Nat → List Instr} {m : Nat → Mem X}
    (h : Quiet N s (fun t => is t ++ R t) m) (hi : ∀ t, t < N → ∀ i, i ∈ is t → okI i) :
    ∃ s', Reach N s s' ∧ Quiet N s' R fun t => (is t).foldl exec1 (m t) := by
  obtain ⟨s', h1, h2, h3⟩ := lift_all s (fun t => ⟨R t, (is t).foldl exec1 (m t), fun _ => [], fun _ => []⟩)
    (fun t ht => by rw [h.proc t ht]; exact run_copies (is t) (hi t ht) (m t) (R t))
  exact ⟨s', h1, fun q t => by rw [h2]; exact h.chan q t, h3⟩

theorem recvOrder_nodup (N t : Nat) (ht : t < N) : (recvOrder N t).Nodup := by
  unfold recvOrder
  rw [List.nodup_map_iff_inj_on List.nodup_range]
  intro a ha b hb h
  rw [List.mem_range] at ha hb
  by_cases h1 : a ≤ t <;> by_cases h2 : b ≤ t
  · rw [show N + t - a = N + (t - a) by omega, show N + t - b = N + (t - b) by omega, Nat.add_mod_left,
      Nat.add_mod_left, Nat.mod_eq_of_lt (by omega), Nat.mod_eq_of_lt (by omega)] at h
    omega
  · rw [show N + t - a = N + (t - a) by omega, Nat.add_mod_left,
      Nat.mod_eq_of_lt (by omega), Nat.mod_eq_of_lt (by omega)] at h
    omega
  · rw [show N + t - b = N + (t - b) by omega, Nat.add_mod_left,
      Nat.mod_eq_of_lt (by omega), Nat.mod_eq_of_lt (by omega)] at h
    omega
  · rw [Nat.mod_eq_of_lt (by omega), Nat.mod_eq_of_lt (by omega)] at h
    omega

theorem sendOrder_nodup (N t : Nat) (ht : t < N) : (sendOrder N t).Nodup := by
  unfold sendOrder
  rw [List.nodup_map_iff_inj_on List.nodup_range]
  intro a ha b hb h
  rw [List.mem_range] at ha hb
  by_cases h1 : t + a < N <;> by_cases h2 : t + b < N
  · rw [Nat.mod_eq_of_lt h1, Nat.mod_eq_of_lt h2] at h; omega
  · rw [Nat.mod_eq_of_lt h1, Nat.mod_eq_sub_mod (by omega), Nat.mod_eq_of_lt (by omega)] at h; omega
  · rw [Nat.mod_eq_of_lt h2, Nat.mod_eq_sub_mod (by omega), Nat.mod_eq_of_lt (by omega)] at h; omega
  · rw [Nat.mod_eq_sub_mod (by omega), Nat.mod_eq_of_lt (by omega), Nat.mod_eq_sub_mod (by omega),
      Nat.mod_eq_of_lt (by omega)] at h
    omega

theorem mem_sendOrder (N t q : Nat) (ht : t < N) : q ∈ sendOrder N t ↔ q < N := by
  unfold sendOrder
  rw [List.mem_map]
  constructor
  · rintro ⟨o, _, rfl⟩
    exact Nat.mod_lt _ (by omega)
  · intro hq
    by_cases h : t ≤ q
    · refine ⟨q - t, List.mem_range.2 (by omega), ?_⟩
      rw [show t + (q - t) = q by omega, Nat.mod_eq_of_lt hq]
    · refine ⟨q + N - t, List.mem_range.2 (by omega), ?_⟩
      rw [show t + (q + N - t) = q + N by omega, Nat.add_mod_right, Nat.mod_eq_of_lt hq]

theorem mem_recvOrder (N t q : Nat) (ht : t < N) : q ∈ recvOrder N t ↔ q < N := by
  constructor
  · intro h
    unfold recvOrder at h
    obtain ⟨o, _, rfl⟩ := List.mem_map.1 h
    exact Nat.mod_lt _ (by omega)
  · exact mem_order N t q ht

/-- What a successful block says about the message from `q` to `t`. -/
theorem fold_deliver_frac {V : Type} [Add V] (b : Block) (node : Nat) (msgs : Nat → List (Option Nat × V))
    (qs : List Nat) (v v' : Nat → V)
    (h : qs.foldlM (fun v q => if q = node then some v else deliver b node q (msgs q) v) v = some v') :
    ∀ q, q ∈ qs → q ≠ node → (recvIdx b q = [] ∧ msgs q = []) ∨
      ∃ n0 len, 0 < len ∧ recvIdx b q = List.range' n0 len ∧
        (msgs q).map Prod.fst = (List.range' n0 len).map (fracOf b) := by
  induction qs generalizing v with
  | nil => intro q hq; cases hq
  | cons q0 qs ih =>
    rw [List.foldlM_cons] at h
    intro q hq hne
    by_cases hn : q0 = node
    · rw [if_pos hn] at h
      rcases List.mem_cons.1 hq with e | e
      · exact absurd (e.trans hn) hne
      · exact ih v h q e hne
    · rw [if_neg hn] at h
      cases hd : deliver b node q0 (msgs q0) v with
      | none => rw [hd] at h; cases h
      | some v1 =>
        rw [hd] at h
        rcases List.mem_cons.1 hq with e | e
        · subst e
          rcases deliver_some _ _ _ _ _ _ hd with ⟨h1, h2, _⟩ | ⟨n0, len, h1, h2, h3, _⟩
          · exact .inl ⟨h1, h2⟩
          · exact .inr ⟨n0, len, h1, h2, h3⟩
        · exact ih v1 h q e hne

theorem lineSize_of_frac (sz : Nat → Nat) (b b' : Block) (n n' : Nat) (h : fracOf b n = fracOf b' n') :
    lineSize sz b n = lineSize sz b' n' := by
  unfold fracOf at h
  unfold lineSize
  cases h1 : b[n]? <;> cases h2 : b'[n']? <;> rw [h1, h2] at h <;> simp_all

theorem total_of_frac (sz : Nat → Nat) (b b' : Block) (ns ns' : List Nat)
    (h : ns.map (fracOf b) = ns'.map (fracOf b')) : total sz b ns = total sz b' ns' := by
  unfold total
  congr 1
  have hl := congrArg List.length h
  rw [List.length_map, List.length_map] at hl
  apply List.ext_getElem
  · rw [List.length_map, List.length_map, hl]
  · intro i h1 h2
    rw [List.length_map] at h1 h2
    rw [List.getElem_map, List.getElem_map]
    apply lineSize_of_frac
    have := (List.ext_getElem_iff.1 h).2 i (by simpa using h1) (by simpa using h2)
    simpa using this

/-- Message and its lines have the same sizes. -/
structure Sized (sz : Nat → Nat) (bq bt : Block) (q t n0 len : Nat) : Prop where
  recv : recvIdx bt q = List.range' n0 len
  length : (sendIdx bq t).length = len
  size : ∀ (j : Nat) (h : j < (sendIdx bq t).length), lineSize sz bq (sendIdx bq t)[j] = lineSize sz bt (n0 + j)
  take : ∀ j, j ≤ len → total sz bq ((sendIdx bq t).take j) = total sz bt (List.range' n0 j)

theorem sized_of_step (sz : Nat → Nat) {V : Type} [Add V] (N : Nat) (bs : Nat → Block) (s : Nat → Nat → V) (t : Nat) (v : Nat → V)
    (ht : t < N) (h : recvAll N (bs t) t (fun q => message (bs q) (s q) t) (s t) = some v) (q : Nat) (hq : q < N)
    (hne : q ≠ t) : ∃ n0 len, Sized sz (bs q) (bs t) q t n0 len := by
  unfold recvAll at h
  rcases fold_deliver_frac _ _ _ _ _ _ h q (mem_order N t q ht hq) hne with ⟨h1, h2⟩ | ⟨n0, len, hlen, h1, h2⟩
  · have h3 : sendIdx (bs q) t = [] := by simpa [message] using h2
    refine ⟨0, 0, by simpa using h1, by rw [h3]; rfl, fun j hj => ?_, fun j hj => ?_⟩
    · rw [h3] at hj; cases hj
    · have : j = 0 := by omega
      subst this
      rw [h3]; rfl
  · have h3 : (sendIdx (bs q) t).map (fracOf (bs q)) = (List.range' n0 len).map (fracOf (bs t)) := by
      rw [← h2]
      simp [message]
    have hl : (sendIdx (bs q) t).length = len := by
      have := congrArg List.length h3
      simpa using this
    refine ⟨n0, len, h1, hl, fun j hj => ?_, fun j hj => ?_⟩
    · apply lineSize_of_frac
      have := (List.ext_getElem_iff.1 h3).2 j (by simpa using hj) (by simpa using hl ▸ hj)
      simpa using this
    · apply total_of_frac
      have e : List.range' n0 j = (List.range' n0 len).take j := by
        obtain ⟨d, rfl⟩ := Nat.exists_eq_add_of_le hj
        rw [← List.range'_append_1, List.take_left' (by rw [List.length_range'])]
      rw [e, List.map_take, List.map_take, h3]

/-- Execution of one block on all processes. -/
theorem block_run (N : Nat) (sz : Nat → Nat) (bs : Nat → Block) (f : Nat → Nat → Nat)
    (hl : ∀ t, t < N → Lay sz (bs t) (f t)) (v v' : Nat → Nat → Nat → X)
    (hv : ∀ t, t < N → nodeStep N bs v t = some (v' t)) (S : State X) (R : Nat → List Instr) (m : Nat → Mem X)
    (hS : Quiet N S (fun t => blockCode N sz (bs t) t ++ R t) m) (hrep : ∀ t, t < N → Rep (f t) (m t) (v t)) :
    ∃ S' m', Reach N S S' ∧ Quiet N S' R m' ∧ (∀ t, t < N → Rep (f t) (m' t) (v' t)) ∧
      ∀ t, t < N → ∀ r, (∀ k, r ≠ .shm k) → m' t r = m t r := by
  have hok : ∀ t, t < N → reduceOk (bs t) = true ∧
      ∃ w, recvAll N (bs t) t (fun q => message (bs q) (v q) t) (v t) = some w ∧
        copyReduceAll (bs t) (reduceAll (bs t) w) = v' t := by
    intro t ht
    have h := hv t ht
    unfold nodeStep at h
    obtain ⟨h1, h2⟩ := Option.ite_none_right_eq_some.1 h
    obtain ⟨w, h3, h4⟩ := Option.map_eq_some_iff.1 h2
    exact ⟨h1, w, h3, h4⟩
  have hsized : ∀ q t, q < N → t < N → q ≠ t → ∃ n0 len, Sized sz (bs q) (bs t) q t n0 len := by
    intro q t hq ht hne
    obtain ⟨_, w, hw, _⟩ := hok t ht
    exact sized_of_step sz N bs v t w ht hw q hq hne
  -- posting, packing, sending
  obtain ⟨Lr, hLr⟩ : ∃ Lr : Nat → List Nat, Lr = fun t => (recvOrder N t).filter (ract sz (bs t) t) := ⟨_, rfl⟩
  obtain ⟨Ls, hLs⟩ : ∃ Ls : Nat → List Nat, Ls = fun t => (sendOrder N t).filter (sact sz (bs t) t) := ⟨_, rfl⟩
  have hLrn : ∀ t, t < N → (Lr t).Nodup := fun t ht => by rw [hLr]; exact (recvOrder_nodup N t ht).filter _
  have hLsn : ∀ t, t < N → (Ls t).Nodup := fun t ht => by rw [hLs]; exact (sendOrder_nodup N t ht).filter _
  have hLrm : ∀ t q, t < N → (q ∈ Lr t ↔ q < N ∧ q ≠ t ∧ total sz (bs t) (recvIdx (bs t) q) ≠ 0) := by
    intro t q ht
    rw [hLr]
    simp only [List.mem_filter, mem_recvOrder N t q ht, ract, decide_eq_true_eq]
  have hLsm : ∀ t q, t < N → (q ∈ Ls t ↔ q < N ∧ q ≠ t ∧ total sz (bs t) (sendIdx (bs t) q) ≠ 0) := by
    intro t q ht
    rw [hLs]
    simp only [List.mem_filter, mem_sendOrder N t q ht, sact, decide_eq_true_eq]
  obtain ⟨rs, hrs⟩ : ∃ rs : Nat → Nat → List (Addr × Nat), rs = fun t q =>
    if q ∈ Lr t then [(⟨.shm (1 + (Lr t).idxOf q), 0⟩, total sz (bs t) (recvIdx (bs t) q))] else [] := ⟨_, rfl⟩
  obtain ⟨ss, hss⟩ : ∃ ss : Nat → Nat → List (Addr × Nat), ss = fun t q =>
    if q ∈ Ls t then [(⟨.shm (1 + (Lr t).length + (Ls t).idxOf q), 0⟩, total sz (bs t) (sendIdx (bs t) q))]
    else [] := ⟨_, rfl⟩
  obtain ⟨C, hC⟩ : ∃ C : Nat → List Instr, C = fun t => unpack sz (bs t) t 1 (recvOrder N t) ++ [.barrier] ++
    (reductions sz (bs t) ++ copyReductions sz (bs t)) := ⟨_, rfl⟩
  have hA : ∀ t, t < N → ∃ m1, LRun (S.proc t) ⟨[.waitall, .barrier] ++ C t ++ R t, m1, rs t, ss t⟩ ∧
      (∀ r, (∀ j, 1 + (Lr t).length ≤ j → r ≠ .shm j) → m1 r = m t r) ∧
      ∀ q, q ∈ Ls t → ∀ (j : Nat) (h : j < (sendIdx (bs t) q).length) (i : Nat),
        i < lineSize sz (bs t) (sendIdx (bs t) q)[j] →
          m1 (.shm (1 + (Lr t).length + (Ls t).idxOf q)) (total sz (bs t) ((sendIdx (bs t) q).take j) + i) =
            m t (.shm 0) (off sz (bs t) (sendIdx (bs t) q)[j] + i) := by
    intro t ht
    have hcode : blockCode N sz (bs t) t ++ R t =
        (((Lr t).zipIdx 1).map fun x => Instr.irecv ⟨.shm x.2, 0⟩ (total sz (bs t) (recvIdx (bs t) x.1)) x.1) ++
        ((((Ls t).zipIdx (1 + (Lr t).length)).flatMap (sendCode sz (bs t))) ++
          ([.waitall, .barrier] ++ C t ++ R t)) := by
      unfold blockCode
      rw [posts_eq, sends_eq, postsEnd_eq, hLr, hLs, hC]
      simp only [List.append_assoc]
    rw [hS.proc t ht, hcode]
    have h1 := run_posts (X := X) (fun q => total sz (bs t) (recvIdx (bs t) q)) (Lr t) (hLrn t ht) 1 _ _ (by omega) rfl
      (show Below ⟨(((Lr t).zipIdx 1).map fun x =>
          Instr.irecv ⟨.shm x.2, 0⟩ (total sz (bs t) (recvIdx (bs t) x.1)) x.1) ++
        ((((Ls t).zipIdx (1 + (Lr t).length)).flatMap (sendCode sz (bs t))) ++
          ([.waitall, .barrier] ++ C t ++ R t)), m t, fun _ => [], fun _ => []⟩ 1 from by
        intro q x hx
        rcases hx with hx | hx <;> cases hx)
    dsimp only at h1
    simp only [List.nil_append] at h1
    have hb2 : Below ⟨(((Ls t).zipIdx (1 + (Lr t).length)).flatMap (sendCode sz (bs t))) ++
        ([.waitall, .barrier] ++ C t ++ R t), m t, rs t, fun _ => []⟩ (1 + (Lr t).length) := by
      intro q x hx
      rcases hx with hx | hx
      · dsimp only at hx
        rw [hrs] at hx
        dsimp only at hx
        by_cases hm : q ∈ Lr t
        · rw [if_pos hm, List.mem_singleton] at hx
          subst hx
          exact ⟨_, by omega, by have := List.idxOf_lt_length_of_mem hm; omega, rfl⟩
        · rw [if_neg hm] at hx; cases hx
      · cases hx
    obtain ⟨m1, g1, g2, g3⟩ := run_sends sz (bs t) (Ls t) (hLsn t ht) (1 + (Lr t).length) _ _ (by omega) rfl hb2
    dsimp only at g1 g2 g3
    simp only [List.nil_append] at g1
    refine ⟨m1, ?_, g2, g3⟩
    have e1 : rs t = fun q => if q ∈ Lr t then
        [((⟨.shm (1 + (Lr t).idxOf q), 0⟩ : Addr), total sz (bs t) (recvIdx (bs t) q))] else [] := by rw [hrs]
    rw [← e1] at h1
    refine h1.trans ?_
    have e2 : ss t = fun q => if q ∈ Ls t then
        [((⟨.shm (1 + (Lr t).length + (Ls t).idxOf q), 0⟩ : Addr), total sz (bs t) (sendIdx (bs t) q))]
        else [] := by rw [hss]
    rw [← e2] at g1
    exact g1
  have hA' : ∃ m1 : Nat → Mem X, ∀ t, t < N →
      LRun (S.proc t) ⟨[.waitall, .barrier] ++ C t ++ R t, m1 t, rs t, ss t⟩ ∧
      (∀ r, (∀ j, 1 + (Lr t).length ≤ j → r ≠ .shm j) → m1 t r = m t r) ∧
      ∀ q, q ∈ Ls t → ∀ (j : Nat) (h : j < (sendIdx (bs t) q).length) (i : Nat),
        i < lineSize sz (bs t) (sendIdx (bs t) q)[j] →
          m1 t (.shm (1 + (Lr t).length + (Ls t).idxOf q)) (total sz (bs t) ((sendIdx (bs t) q).take j) + i) =
            m t (.shm 0) (off sz (bs t) (sendIdx (bs t) q)[j] + i) := by
    classical
    refine ⟨fun t => if ht : t < N then (hA t ht).choose else m t, fun t ht => ?_⟩
    simp only [dif_pos ht]
    exact (hA t ht).choose_spec
  obtain ⟨m1, hm1⟩ := hA'
  obtain ⟨S1, a1, a2, a3⟩ := lift_all S (fun t => ⟨[.waitall, .barrier] ++ C t ++ R t, m1 t, rs t, ss t⟩)
    fun t ht => (hm1 t ht).1
  -- the messages
  have hsep : ∀ t, t < N → Sep (S1.proc t) := by
    intro t ht
    rw [a3 t ht]
    refine (hm1 t ht).1.sep ?_
    rw [hS.proc t ht]
    exact ⟨fun _ _ _ _ h => absurd h List.not_mem_nil, fun _ _ _ _ _ h => absurd h List.not_mem_nil⟩
  have htot : ∀ q t, q < N → t < N → q ≠ t →
      total sz (bs q) (sendIdx (bs q) t) = total sz (bs t) (recvIdx (bs t) q) := by
    intro q t hq ht hne
    obtain ⟨n0, len, h⟩ := hsized q t hq ht hne
    have := h.take len (Nat.le_refl _)
    rw [← h.length, List.take_length] at this
    rw [this, h.recv, h.length]
  have hpair : Paired N S1 := by
    intro q t hq ht hne
    rw [a3 q hq, a3 t ht]
    dsimp only
    rw [hrs, hss]
    dsimp only
    by_cases h : total sz (bs t) (recvIdx (bs t) q) = 0
    · left
      rw [if_neg fun g => ((hLsm q t hq).1 g).2.2 (by rw [htot q t hq ht hne, h]),
        if_neg fun g => ((hLrm t q ht).1 g).2.2 h]
      exact ⟨rfl, rfl⟩
    · right
      rw [if_pos ((hLsm q t hq).2 ⟨ht, hne.symm, by rw [htot q t hq ht hne]; exact h⟩),
        if_pos ((hLrm t q ht).2 ⟨hq, hne, h⟩), htot q t hq ht hne]
      exact ⟨_, _, _, rfl, rfl⟩
  obtain ⟨S2, b1, b2⟩ := exchange S1 hpair hsep (fun t ht => ⟨_, by rw [a3 t ht]; rfl⟩) fun q t => by rw [a2]; exact hS.chan q t
  -- unpacking and reductions
  obtain ⟨m2, hm2⟩ : ∃ m2 : Nat → Mem X, m2 = fun t => (S2.proc t).mem := ⟨_, rfl⟩
  have hproc2 : ∀ t, t < N → S2.proc t = ⟨[.waitall, .barrier] ++ C t ++ R t, m2 t, fun _ => [], fun _ => []⟩ := by
    intro t ht
    have e1 := b2.rest t ht
    rw [a3 t ht] at e1
    have e2 : (S2.proc t).recvs = fun _ => [] := by
      funext q
      by_cases hq : q = t ∨ N ≤ q
      · rw [(b2.own t q ht hq).1, a3 t ht]
        dsimp only
        rw [hrs]
        dsimp only
        exact if_neg fun g => by
          have := (hLrm t q ht).1 g
          omega
      · exact (b2.done q t (by omega) ht (by omega) trivial).2
    have e3 : (S2.proc t).sends = fun _ => [] := by
      funext q
      by_cases hq : q = t ∨ N ≤ q
      · rw [(b2.own t q ht hq).2, a3 t ht]
        dsimp only
        rw [hss]
        dsimp only
        exact if_neg fun g => by
          have := (hLsm t q ht).1 g
          omega
      · exact (b2.done t q ht (by omega) (by omega) trivial).1
    cases hp : S2.proc t with
    | mk a b c d =>
      rw [hp] at e1 e2 e3
      dsimp only at e1 e2 e3
      rw [e1, e2, e3, hm2]
      dsimp only
      rw [hp]
  -- untouched memory
  have hkeep : ∀ t, t < N → ∀ r, (∀ j, 1 ≤ j → r ≠ .shm j) → m2 t r = m t r := by
    intro t ht r hr
    have h1 : m1 t r = m t r := (hm1 t ht).2.1 r fun j hj => hr j (by omega)
    rw [← h1]
    funext i
    rw [hm2]
    have := b2.keep t r i ht (by
      intro q x hx hin
      rw [a3 t ht] at hx
      dsimp only at hx
      rw [hrs] at hx
      dsimp only at hx
      by_cases hm : q ∈ Lr t
      · rw [if_pos hm, List.mem_singleton] at hx
        subst hx
        exact hr _ (by omega) hin.1
      · rw [if_neg hm] at hx; cases hx)
    dsimp only
    rw [this, a3 t ht]
  have hrep2 : ∀ t, t < N → Rep (f t) (m2 t) (v t) := by
    intro t ht n i hi
    rw [hkeep t ht (.shm 0) fun j hj e => shm_zero_ne hj e]
    exact hrep t ht n i hi
  -- the receive buffers
  have hbuf : ∀ t, t < N → ∀ q, q ∈ recvOrder N t → ract sz (bs t) t q = true → ∀ n0 ns,
      recvIdx (bs t) q = n0 :: ns →
      Buf (f t) (m2 t) (1 + ((recvOrder N t).filter (ract sz (bs t) t)).idxOf q) n0 (message (bs q) (v q) t) := by
    intro t ht q hq hr n0 ns hn j hj i hi
    have hq' : q < N := (mem_recvOrder N t q ht).1 hq
    have hr' := hr
    unfold ract at hr'
    rw [decide_eq_true_eq] at hr'
    obtain ⟨hne, hr0⟩ := hr'
    have hqm : q ∈ Lr t := (hLrm t q ht).2 ⟨hq', hne, hr0⟩
    have htm : t ∈ Ls q := (hLsm q t hq').2 ⟨ht, hne.symm, by rw [htot q t hq' ht hne]; exact hr0⟩
    obtain ⟨n0', len, hs⟩ := hsized q t hq' ht hne
    have hlen : 0 < len := by
      have := hs.recv
      rw [hn] at this
      have := congrArg List.length this
      rw [List.length_cons, List.length_range'] at this
      omega
    have hn0 : n0' = n0 := by
      have := hs.recv
      rw [hn] at this
      obtain ⟨len', rfl⟩ : ∃ len', len = len' + 1 := ⟨len - 1, by omega⟩
      rw [List.range'_succ] at this
      exact (List.cons.inj this).1.symm
    subst hn0
    have hj' : j < (sendIdx (bs q) t).length := by simpa [message] using hj
    have hjl : j < len := by rw [← hs.length]; exact hj'
    have hmem : ∀ n, n ∈ List.range' n0' len → n < (bs t).length := fun n h =>
      recvIdx_lt (bs t) q n (by rw [hs.recv]; exact h)
    have hmem' : ∀ n, n ∈ List.range' n0' j → n < (bs t).length := fun n h =>
      hmem n (by
        rw [List.mem_range'_1] at h ⊢
        omega)
    have hsize : lineSize sz (bs q) (sendIdx (bs q) t)[j] = f t (n0' + j) := by
      rw [hs.size j hj', hl t ht (n0' + j) (hmem _ (by rw [List.mem_range'_1]; omega))]
    have hpos : total sz (bs q) ((sendIdx (bs q) t).take j) = lo (f t) (n0' + j) - lo (f t) n0' := by
      rw [hs.take j (by omega)]
      exact (hl t ht).total n0' j hmem'
    have hmsg : (message (bs q) (v q) t)[j].2 = v q (sendIdx (bs q) t)[j] := by
      simp [message]
    have hnl : (sendIdx (bs q) t)[j] < (bs q).length := sendIdx_lt (bs q) t _ (List.getElem_mem hj')
    have hbound : total sz (bs q) ((sendIdx (bs q) t).take j) + i < total sz (bs t) (recvIdx (bs t) q) := by
      rw [hs.recv, (hl t ht).total n0' len hmem, hpos]
      have h1 := lo_end (f t) (show n0' + j < n0' + len by omega)
      have h2 := lo_mono (f t) (show n0' ≤ n0' + j by omega)
      omega
    -- the message was moved
    have hd := b2.data q t ⟨.shm (1 + (Lr q).length + (Ls q).idxOf t), 0⟩ ⟨.shm (1 + (Lr t).idxOf q), 0⟩
      (total sz (bs t) (recvIdx (bs t) q)) hq' ht hne trivial (by
        rw [a3 q hq']
        dsimp only
        rw [hss]
        dsimp only
        rw [if_pos htm, htot q t hq' ht hne]) (by
        rw [a3 t ht]
        dsimp only
        rw [hrs]
        dsimp only
        rw [if_pos hqm]) _ hbound
    dsimp only at hd
    rw [Nat.zero_add, a3 q hq'] at hd
    dsimp only at hd
    rw [(hm1 q hq').2.2 t htm j hj' i (by rw [hsize]; exact hi), (hl q hq').off (Nat.le_of_lt hnl),
      hrep q hq' _ i (by rw [← hl q hq' _ hnl, hsize]; exact hi), hpos] at hd
    have e : (recvOrder N t).filter (ract sz (bs t) t) = Lr t := by rw [hLr]
    rw [e, hmsg, ← hd, hm2]
  have hC' : ∀ t, t < N → ∃ m3, (C t).foldl exec1 (m2 t) = m3 ∧ Same0 (m2 t) m3 ∧ Rep (f t) m3 (v' t) := by
    intro t ht
    obtain ⟨ho, w, hw, hv'⟩ := hok t ht
    obtain ⟨m3, c1, c2, c3⟩ := unpack_rep sz (bs t) (f t) (hl t ht) t (fun q => message (bs q) (v q) t) (recvOrder N t)
      (recvOrder_nodup N t ht) 1 (m2 t) (v t) w (by omega) hw (hrep2 t ht) (hbuf t ht)
    obtain ⟨m4, d1, d2, d3⟩ := rep_reductions sz (bs t) (f t) (hl t ht) ho m3 w c3
    rw [hv'] at d3
    refine ⟨m4, ?_, c2.trans d2, d3⟩
    rw [hC]
    dsimp only
    have e : (unpack sz (bs t) t 1 (recvOrder N t) ++ [Instr.barrier]).foldl exec1 (m2 t) = m3 := by
      rw [List.foldl_append, c1]; rfl
    rw [List.foldl_append, e]
    exact d1
  have hok' : ∀ t, t < N → ∀ i, i ∈ C t → okI i := by
    intro t ht i hi
    rw [hC] at hi
    dsimp only at hi
    rcases List.mem_append.1 hi with hi | hi
    · rcases List.mem_append.1 hi with hi | hi
      · exact ok_unpack sz (bs t) t _ 1 (by omega) i hi
      · rw [List.mem_singleton.1 hi]; exact trivial
    · exact ok_reductions sz (bs t) (f t) (hl t ht) (hok t ht).1 i hi
  obtain ⟨S3, c1, c2, c3⟩ := lift_all S2 (fun t => ⟨R t, (C t).foldl exec1 (m2 t), fun _ => [], fun _ => []⟩) (by
    intro t ht
    rw [hproc2 t ht]
    exact .step (.waitall rfl fun _ => ⟨rfl, rfl⟩) (.step (.barrier rfl) (run_copies (C t) (hok' t ht) (m2 t) (R t))))
  refine ⟨S3, fun t => (C t).foldl exec1 (m2 t), (a1.trans b1).trans c1,
    ⟨fun q t => by rw [c2]; exact b2.chan q t, c3⟩, fun t ht => ?_, fun t ht r hr => ?_⟩
  · obtain ⟨m3, d1, _, d3⟩ := hC' t ht
    dsimp only
    rw [d1]; exact d3
  · obtain ⟨m3, d1, d2, _⟩ := hC' t ht
    dsimp only
    rw [d1, d2 r (hr 0)]
    exact hkeep t ht r fun j _ => hr j

/-- Execution of all blocks after block 0. -/
theorem blocks_run (N : Nat) (sz : Nat → Nat) (f : Nat → Nat → Nat) (p : Nat → List Block) (v v' : Nat → Nat → Nat → X)
    (hrun : Run N p v v') (hl : ∀ t, t < N → ∀ b, b ∈ p t → Lay sz b (f t)) :
    ∀ (first : Bool) (S : State X) (R : Nat → List Instr) (m : Nat → Mem X),
      Quiet N S (fun t => blocksCode N sz t first (p t) ++ R t) m → (∀ t, t < N → Rep (f t) (m t) (v t)) →
      ∃ S' m', Reach N S S' ∧ Quiet N S' R m' ∧ (∀ t, t < N → Rep (f t) (m' t) (v' t)) ∧
        ∀ t, t < N → ∀ r, (∀ k, r ≠ .shm k) → m' t r = m t r := by
  induction hrun with
  | @done p s hp =>
    intro first S R m hS hrep
    obtain ⟨S', h1, h2⟩ := Quiet.copies (is := fun _ => [.barrier]) (hS.congr (prog' := fun t => [.barrier] ++ R t)
      fun t ht => by rw [hp t ht]; rfl) (fun t ht i hi => by rw [List.mem_singleton.1 hi]; exact trivial)
    exact ⟨S', m, h1, h2, hrep, fun _ _ _ _ => rfl⟩
  | @step p s s'' hd tl s' hp hstep hrest ih =>
    intro first S R m hS hrep
    obtain ⟨S1, g1, g2⟩ := Quiet.copies (is := fun _ => if first then [] else [.barrier])
      (R := fun t => blockCode N sz (hd t) t ++ (blocksCode N sz t false (tl t) ++ R t)) (hS.congr
      fun t ht => by rw [hp t ht, blocksCode]; simp only [List.append_assoc])
      (fun t ht i hi => by
        cases first with
        | true => cases hi
        | false => rw [List.mem_singleton.1 hi]; exact trivial)
    have g2' : Quiet N S1 (fun t => blockCode N sz (hd t) t ++ (blocksCode N sz t false (tl t) ++ R t)) m := by
      refine ⟨g2.chan, fun t ht => ?_⟩
      rw [g2.proc t ht]
      cases first <;> rfl
    obtain ⟨S2, m2, k1, k2, k3, k4⟩ := block_run N sz hd f
      (fun t ht => hl t ht _ (by rw [hp t ht]; exact List.mem_cons_self)) s s' hstep S1 _ m g2' hrep
    obtain ⟨S3, m3, l1, l2, l3, l4⟩ := ih
      (fun t ht b hb => hl t ht b (by rw [hp t ht]; exact List.mem_cons_of_mem _ hb)) false S2 R m2 k2 k3
    exact ⟨S3, m3, (g1.trans k1).trans l1, l2, l3, fun t ht r hr => by rw [l4 t ht r hr, k4 t ht r hr]⟩

theorem Run.reduceOk {V : Type} [Add V] {N : Nat} {p : Nat → List Block} {s s' : Nat → Nat → V} (h : Run N p s s') :
    ∀ t, t < N → ∀ b, b ∈ p t → Schedule.reduceOk b = true := by
  induction h with
  | done hp => intro t ht b hb; rw [hp t ht] at hb; cases hb
  | step hd tl s' hp hstep _ ih =>
    intro t ht b hb
    rw [hp t ht] at hb
    rcases List.mem_cons.1 hb with e | e
    · subst e
      have h := hstep t ht
      unfold nodeStep at h
      exact (Option.ite_none_right_eq_some.1 h).1
    · exact ih t ht b e

/-- No entries of dropped messages. -/
def Plain (b : Block) : Prop := ∀ l, l ∈ b → ∀ e, e ∈ l.sendto ++ l.recvfrom → -10 < e.1

theorem covered_of (b : Block) (h1 : Plain b) (h2 : Schedule.reduceOk b = true) : covered b = true := by
  unfold covered
  rw [List.all_eq_true]
  intro l hl
  rw [Bool.and_eq_true]
  refine ⟨List.all_eq_true.2 fun e he => decide_eq_true (h1 l hl e he), List.all_eq_true.2 fun r hr => ?_⟩
  obtain ⟨n, hn, rfl⟩ := List.getElem_of_mem hl
  have h3 := (reduceOk_mem b h2 (b[n], n) (by
    rw [List.mem_zipIdx_iff_getElem?]
    exact List.getElem?_eq_getElem hn)).2 r hr
  refine decide_eq_true ?_
  by_contra hc
  have h4 := h3.2
  unfold fracOf at h4
  rw [List.getElem?_eq_none (by omega)] at h4
  cases h4

/-- The whole program from the effect of its parts. -/
theorem assemble {O : Type} (N : Nat) (sz : Nat → Nat) (kind : Kind) (sched : Nat → List Block)
    (f : Nat → Nat → Nat) (m : Nat → Mem X) (inp junk : Nat → Nat → Nat → X) (co : Block → (Nat → Nat → X) → O)
    (out : Nat → O) (hexec : Exec N co sched inp junk out)
    (hlay : ∀ t, t < N → ∀ b, b ∈ (sched t).tail → Lay (mmsize N sz) b (f t))
    (hplain : ∀ t, t < N → ∀ b, b ∈ (sched t).tail → Plain b)
    (hfrac0 : ∀ t, t < N → ∀ b, (sched t).head? = some b → ∀ l, l ∈ b → l.frac < N)
    (hfrac1 : ∀ t, t < N → ∀ b, (sched t).getLast? = some b → ∀ l, l ∈ b → l.frac < N)
    (P : Nat → Mem X → O → Prop)
    (hin : ∀ t, t < N → ∀ b, (sched t).head? = some b → (∀ i, i ∈ copyInCode N sz kind b t → okI i) ∧
      Rep (f t) ((copyInCode N sz kind b t).foldl exec1 (m t)) (copyIn b (inp t) (junk t)) ∧
      Same0 (m t) ((copyInCode N sz kind b t).foldl exec1 (m t)))
    (hout : ∀ t, t < N → ∀ b, (sched t).getLast? = some b → ∀ m2 v, Rep (f t) m2 v →
      (∀ r, (∀ k, r ≠ .shm k) → m2 r = m t r) → (∀ i, i ∈ copyOutCode N sz kind b t → okI i) ∧
      P t ((copyOutCode N sz kind b t).foldl exec1 m2) (co b v)) :
    ∃ prog : Nat → List Instr, (∀ t, t < N → program N sz kind (sched t) t = some (prog t)) ∧
      Correct N prog m fun mem => ∀ t, t < N → P t (mem t) (out t) := by
  obtain ⟨b0, bs, last, s', hs, hrun, ho⟩ := hexec
  have hlast : ∀ t, t < N → (sched t).getLast? = some (last t) := by
    intro t ht
    obtain ⟨h1, h2⟩ := hs t ht
    rw [h1, List.getLast?_cons, h2]; rfl
  have hhead : ∀ t, t < N → (sched t).head? = some (b0 t) := by
    intro t ht
    rw [(hs t ht).1]; rfl
  have htail : ∀ t, t < N → (sched t).tail = bs t := by
    intro t ht
    rw [(hs t ht).1]; rfl
  refine ⟨fun t => copyInCode N sz kind (b0 t) t ++ blocksCode N (mmsize N sz) t true (bs t) ++
    copyOutCode N sz kind (last t) t, fun t ht => ?_, ?_⟩
  · have h1 := hlast t ht
    unfold program
    rw [h1, (hs t ht).1]
    dsimp only
    rw [if_pos]
    rw [Bool.and_eq_true]
    refine ⟨List.all_eq_true.2 fun b hb => covered_of b (hplain t ht b (by rw [htail t ht]; exact hb))
      (Run.reduceOk hrun t ht b hb), List.all_eq_true.2 fun l hl => decide_eq_true ?_⟩
    rcases List.mem_append.1 hl with hl | hl
    · exact hfrac0 t ht _ (hhead t ht) l hl
    · exact hfrac1 t ht _ (hlast t ht) l hl
  · obtain ⟨S1, a1, a2⟩ := Quiet.copies (is := fun t => copyInCode N sz kind (b0 t) t)
      (R := fun t => blocksCode N (mmsize N sz) t true (bs t) ++ copyOutCode N sz kind (last t) t)
      ((quiet_initial N (fun t => copyInCode N sz kind (b0 t) t ++ blocksCode N (mmsize N sz) t true (bs t) ++
        copyOutCode N sz kind (last t) t) m).congr fun t ht => List.append_assoc _ _ _)
      (fun t ht => (hin t ht _ (hhead t ht)).1)
    obtain ⟨S2, m2, c1, c2, c3, c4⟩ := blocks_run N (mmsize N sz) f bs _ s' hrun
      (fun t ht b hb => hlay t ht b (by rw [htail t ht]; exact hb)) true S1 _ _ a2
      (fun t ht => (hin t ht _ (hhead t ht)).2.1)
    have hO := fun t ht => hout t ht _ (hlast t ht) (m2 t) (s' t) (c3 t ht) fun r hr => by
      rw [c4 t ht r hr, (hin t ht _ (hhead t ht)).2.2 r (hr 0)]
    obtain ⟨S3, d1, d2⟩ := Quiet.copies (R := fun _ => []) (is := fun t => copyOutCode N sz kind (last t) t)
      (c2.congr fun t ht => (List.append_nil _).symm) (fun t ht => (hO t ht).1)
    obtain ⟨n, hn⟩ := (a1.trans c1).trans d1
    refine correct_of_run hn (fun t ht => ?_) fun t ht => ?_
    · rw [d2.proc t ht]
      exact ⟨rfl, fun q => ⟨rfl, rfl, d2.chan q t, d2.chan t q⟩⟩
    · dsimp only
      rw [d2.proc t ht, ho t ht]
      exact (hO t ht).2

end ExtMpi.RawCode
