import Verif.Lemmas.TasksGather
import Verif.Lemmas.TasksSchedules
import Verif.Spec.TasksNode
import Verif.Lemmas.TasksMatched
/-! # Several processes per node (C66, C67) -/
namespace ExtMpi.TasksNode
open RawCode Schedule RankPerm

/-! ## The emitted program is the share of a process -/

theorem newEntry_any {ns r : Nat} (act : Nat → Bool) (l : List (Int × Int)) :
    ((l.map (newEntry ns r act)).any fun e => e.1 == -1) = l.any fun e => e.1 == -1 := by
  rw [List.any_map]
  apply List.any_congr rfl
  intro e
  show ((newEntry ns r act e).1 == -1) = (e.1 == -1)
  unfold newEntry
  split
  · rfl
  · have h1 : ¬(e.1 = -1) := by omega
    have h2 : ¬(partner ns r e.1.toNat (act e.1.toNat) = -1) := by
      unfold partner
      split <;> omega
    rw [Bool.eq_iff_iff]
    simp [h1, h2]

theorem lineSize_map {sz : Nat → Nat} {b : Block} {g : LineD → LineD} (h : ∀ l, (g l).frac = l.frac) (n : Nat) :
    lineSize sz (b.map g) n = lineSize sz b n := by
  unfold lineSize
  rw [List.getElem?_map]
  cases b[n]? with
  | none => rfl
  | some l => exact congrArg sz (h l)

theorem off_map {sz : Nat → Nat} {b : Block} {g : LineD → LineD} (h : ∀ l, (g l).frac = l.frac) (n : Nat) :
    off sz (b.map g) n = off sz b n := by
  unfold off
  rw [show lineSize sz (b.map g) = lineSize sz b from funext (lineSize_map h)]

theorem copyOutAll_map {sz : Nat → Nat} {len : Nat} {g : LineD → LineD} (h : ∀ l, (g l).frac = l.frac)
    (h2 : ∀ l, ((g l).sendto.any fun e => e.1 == -1) = l.sendto.any fun e => e.1 == -1) (b : Block) : ∀ add,
    copyOutAll sz len add (b.map g) = copyOutAll sz len add b := by
  induction b with
  | nil => intro add; rfl
  | cons l b ih =>
    intro add
    rw [List.map_cons, copyOutAll, copyOutAll, ih, h, h2]

theorem lo_coarse (ns : Nat) (cnt : Nat → Nat) (a r : Nat) :
    lo cnt (a * ns + r) = lo (coarse ns cnt) a + iodispl ns cnt a r := by
  have step : ∀ a r, lo cnt (a * ns + r) = lo cnt (a * ns) + iodispl ns cnt a r := by
    intro a r
    induction r with
    | zero => rfl
    | succ r ih =>
      rw [← Nat.add_assoc, lo_succ, ih, iodispl_lo, iodispl_lo, lo_succ, Nat.add_assoc]
  rw [step]
  congr 1
  induction a with
  | zero => rw [Nat.zero_mul]; rfl
  | succ a ih => rw [Nat.succ_mul, step, ih, lo_succ]; rfl

/-- Programs of an allgather for schedules with a constant layout of the lines. -/
theorem gather_masters {X : Type} [Add X] {N ns : Nat} (hns : 0 < ns) (cnt : Nat → Nat) {perm : List Nat} (hp : IsPerm N perm)
    (sched : Nat → List Block) (u : Users) (m : Nat → Mem X) (f : Nat → Nat → Nat)
    (hA : Apart ns u (∑ k ∈ Finset.range (N * ns), cnt k))
    (hexec : ∀ inp junk : Nat → Nat → Nat → X, ∃ out, Exec N copyOut sched inp junk out ∧ AllgatherPost N inp out)
    (hlay : ∀ t, t < N → ∀ b, b ∈ sched t → Lay (mmsize N (coarse ns cnt)) b (f t))
    (hgood : ∀ t, t < N → ∀ b, b ∈ sched t → Good N b)
    (hfrac : ∀ t, t < N → ∀ b, b ∈ sched t → ∀ l, l ∈ b → l.frac < N)
    (hfirst : ∀ t, t < N → ∀ b, (sched t).head? = some b → ∃ (n0 : Nat) (l0 : LineD), b[n0]? = some l0 ∧ l0.frac = t ∧
      ∀ (j : Nat) (l : LineD), b[j]? = some l → ((l.recvfrom.any fun e => e.1 == -1) = true ↔ j = n0))
    (hag : ∀ k, (∀ a, a < N → k < (sched a).tail.length) → Agree N ns perm fun a => (sched a).tail.getD k []) :
    ∃ (prog : Nat → List Instr) (M : Nat → Master),
      (∀ p, p < N * ns → gatherProgram N ns cnt perm (sched (p / ns)) (p / ns) (p % ns) = some (prog p)) ∧
      (∀ p, (prog p).map (placed u p) = share ns (p % ns) (M (p / ns))) ∧
      MastersOk N ns M m fun mem => TAllgatherMem N ns u cnt m mem := by
  obtain ⟨sz, hsz⟩ : ∃ sz, sz = coarse ns cnt := ⟨_, rfl⟩
  rw [← lo_eq_sum] at hA
  have hlen : lo cnt (N * ns) = moffset sz N := by
    have := lo_coarse ns cnt N 0
    rw [Nat.add_zero, ← hsz] at this
    exact this
  rw [hlen] at hA
  rw [← hsz] at hlay
  -- the first line that receives from the user
  obtain ⟨first, hfirst'⟩ : ∃ first : Nat → Nat, ∀ a, first a =
    (((sched a).head?.getD []).findIdx fun l => l.recvfrom.any fun e => e.1 == -1) := ⟨_, fun _ => rfl⟩
  obtain ⟨I, hI⟩ : ∃ I : Nat → Master, ∀ a, I a = (none, .barrier) :: perProc ns (inOf cnt u ns a (lo (f a) (first a))) :=
    ⟨_, fun _ => rfl⟩
  obtain ⟨after, hafter⟩ : ∃ after : Nat → Mem X, ∀ a, after a = ((I a).map Prod.snd).foldl exec1 (m a) := ⟨_, fun _ => rfl⟩
  have haf : ∀ a, after a = ((List.range ns).flatMap (inOf cnt u ns a (lo (f a) (first a)))).foldl exec1 (m a) := by
    intro a
    rw [hafter, hI, List.map_cons, perProc_snd]
    rfl
  obtain ⟨out, hE, hpost⟩ := hexec (fun a _ i => after a (.shm 0) (lo (f a) (first a) + i))
    (fun a n i => m a (.shm 0) (lo (f a) n + i))
  obtain ⟨b0, bs, last, s', hs, hrun, ho⟩ := hE
  have hlast : ∀ t, t < N → (sched t).getLast? = some (last t) := by
    intro t ht
    obtain ⟨h1, h2⟩ := hs t ht
    rw [h1, List.getLast?_cons, h2]; rfl
  have hhead : ∀ t, t < N → (sched t).head? = some (b0 t) := by
    intro t ht
    rw [(hs t ht).1]; rfl
  have htail : ∀ t, t < N → (sched t).tail = bs t := by
    intro t ht
    rw [(hs t ht).1]; rfl
  have mb0 : ∀ t, t < N → b0 t ∈ sched t := fun t ht => List.mem_of_mem_head? (hhead t ht)
  have mla : ∀ t, t < N → last t ∈ sched t := fun t ht => List.mem_of_getLast? (hlast t ht)
  have mbs : ∀ t, t < N → ∀ b, b ∈ bs t → b ∈ sched t := fun t ht b hb => by
    rw [(hs t ht).1]; exact List.mem_cons_of_mem _ hb
  have hf0 : ∀ t, t < N → first t = ((b0 t).findIdx fun l => l.recvfrom.any fun e => e.1 == -1) := by
    intro t ht
    rw [hfirst', hhead t ht]; rfl
  have hn0 : ∀ t, t < N → ∃ l0 : LineD, (b0 t)[first t]? = some l0 ∧ l0.frac = t ∧
      ∀ (j : Nat) (l : LineD), (b0 t)[j]? = some l → ((l.recvfrom.any fun e => e.1 == -1) = true ↔ j = first t) := by
    intro t ht
    obtain ⟨n0, l0, g1, g2, g3⟩ := hfirst t ht _ (hhead t ht)
    have hn : n0 < (b0 t).length := (List.getElem?_eq_some_iff.1 g1).1
    have hfi : first t = n0 := by
      rw [hf0 t ht, List.findIdx_eq hn]
      refine ⟨(g3 n0 _ (List.getElem?_eq_getElem hn)).2 rfl, fun j hj => ?_⟩
      rw [Bool.eq_false_iff]
      intro h
      have := (g3 j _ (List.getElem?_eq_getElem (by omega))).1 h
      omega
    rw [hfi]
    exact ⟨l0, g1, g2, g3⟩
  have hsize : ∀ t, t < N → f t (first t) = sz t := by
    intro t ht
    obtain ⟨l0, g1, g2, _⟩ := hn0 t ht
    have := (lay_frac (hlay t ht _ (mb0 t ht)) (hfrac t ht _ (mb0 t ht)) _ _ g1).1
    rw [this, g2]
  have hoff : ∀ t, t < N → off sz (b0 t) (first t) = lo (f t) (first t) := by
    intro t ht
    obtain ⟨l0, g1, _⟩ := hn0 t ht
    have hn : first t < (b0 t).length := (List.getElem?_eq_some_iff.1 g1).1
    rw [off_eq]
    apply lo_congr
    intro k hk
    have hk' : k < (b0 t).length := by omega
    have := (lay_frac (hlay t ht _ (mb0 t ht)) (hfrac t ht _ (mb0 t ht)) _ _ (List.getElem?_eq_getElem hk')).1
    rw [this, lineSize, List.getElem?_eq_getElem hk']
  have hOut : ∀ a, a < N → ∀ i, i ∈ copyOutAll sz (moffset sz N) 0 (last a) →
      ∃ d s n, i = .copy false ⟨.recv, d⟩ ⟨.shm 0, s⟩ n ∧ d + n ≤ moffset sz N ∧ 0 < n := fun a ha i hi =>
    mem_copyOutAll _ (hfrac a ha _ (mla a ha)) _ i hi
  have hio : ∀ a, iodispl ns cnt a ns = sz a := fun a => by rw [hsz]; rfl
  -- correctness of the shares
  have hT := assembleT (X := X) hns sz (perm := perm) f m I
    (fun a => perProc ns (outOf u ns a (copyOutAll sz (moffset sz N) 0 (last a)))) bs _ s' hrun
    (fun t ht b hb => hlay t ht b (mbs t ht b hb))
    (fun k hk => by
      have := hag k (fun a ha => by rw [htail a ha]; exact hk a ha)
      intro a q ha hq hne
      have h := this a q ha hq hne
      dsimp only at h
      rw [htail a ha, htail q hq] at h
      exact h)
    (fun a ha => by
      rw [hI]
      intro x hx
      rcases List.mem_cons.1 hx with rfl | hx
      · exact ⟨trivial, .inl rfl⟩
      · exact in_copies cnt u ns a _ x hx)
    (fun a ha => out_copies (hOut a ha))
    (fun a ha => by rw [hI]; exact mfree_barrier (A := []) trivial (in_free cnt u ns a _) none)
    (fun a ha => out_free hA a (hOut a ha))
    (fun a ha => by
      rw [← hafter]
      obtain ⟨l0, g1, g2, g3⟩ := hn0 a ha
      intro n i hi
      unfold copyIn
      by_cases e : n = first a
      · subst e
        rw [g1]
        dsimp only
        rw [if_pos ((g3 _ _ g1).2 rfl)]
      · have hsame : after a (.shm 0) (lo (f a) n + i) = m a (.shm 0) (lo (f a) n + i) := by
          rw [haf]
          apply (in_spec cnt u ns a (lo (f a) (first a)) (m a) ns (Nat.le_refl _)).2.1
          rw [hio]
          rintro ⟨h1, h2⟩
          have hs1 := hsize a ha
          rcases Nat.lt_or_gt_of_ne e with h | h
          · have := lo_end (f a) h; omega
          · have := lo_end (f a) h; omega
        rw [hsame]
        cases hb : (b0 a)[n]? with
        | none => rfl
        | some l =>
          dsimp only
          rw [if_neg fun h => e ((g3 n l hb).1 h)])
    (fun a mem => (∀ r, r < ns → ∀ g i, g < N → i < sz g →
        mem .recv (u.recv (a * ns + r) + (moffset sz g + i)) = after g (.shm 0) (lo (f g) (first g) + i)) ∧
      (∀ e, (∀ r, r < ns → ¬(u.recv (a * ns + r) ≤ e ∧ e < u.recv (a * ns + r) + moffset sz N)) → mem .recv e = m a .recv e) ∧
      mem .send = m a .send)
    (fun a ha m2 hr hm2 => by
      rw [perProc_snd]
      obtain ⟨o1, o2, o3⟩ := out_spec hA a hns _ (hOut a ha) m2 ns (Nat.le_refl _)
      have hk : ∀ g, (∀ k, g ≠ .shm k) → m2 g = m a g := by
        intro g hg
        rw [hm2 g hg, ← hafter, haf]
        exact (in_spec cnt u ns a _ (m a) ns (Nat.le_refl _)).2.2 g (hg 0)
      refine ⟨fun r hr' g i hg hi => ?_, fun e he => ?_, ?_⟩
      · have hle : moffset sz g + sz g ≤ moffset sz N := lo_end sz hg
        rw [o1 r _ hr' (by omega)]
        have hr2 : Rep (f a) (view (u.recv (a * ns + r)) m2) (s' a) := by
          intro n i hi
          rw [← hr n i hi]
          exact if_neg (by intro h; cases h)
        have := (copyOutCode_all N sz (f a) .allgather (by intro h; cases h) (last a) a _ _
          (hlay a ha _ (mla a ha)) (hfrac a ha _ (mla a ha)) hr2).2.1 g _ hg (by rw [← ho a ha]; exact hpost a g ha hg) i hi
        exact this
      · rw [o2 e he, hk .recv (by intro k h; cases h)]
      · rw [o3 .send (by intro h; cases h), hk .send (by intro k h; cases h)])
  -- the emitted programs
  refine ⟨fun p => if p < N * ns then
      copyInT ns cnt (p / ns) (p % ns) (tasksBlock N ns perm (p / ns) (p % ns) (b0 (p / ns))) ++
        code (blocksLines N ns (mmsize N sz) (p / ns) (p % ns) true ((bs (p / ns)).map (tasksBlock N ns perm (p / ns) (p % ns)))) ++
        copyOutAll sz (moffset sz N) 0 (tasksBlock N ns perm (p / ns) (p % ns) (last (p / ns)))
      else [], _, fun p hpn => ?_, ?_, hT.imp fun mem hP => ⟨?_, ?_, ?_⟩⟩
  · have ha : p / ns < N := div_lt hpn
    have hr : p % ns < ns := Nat.mod_lt _ hns
    dsimp only
    rw [if_pos hpn]
    unfold gatherProgram tasks
    rw [if_pos ⟨by simpa using hp.length_eq, fun x hx => List.mem_range.1 (hp.mem_iff.1 hx), fun x hx => by
      obtain ⟨i, h, _⟩ := back_spec N perm hp x hx
      rw [h]; rfl, ha, fun b hb l hl e he => by
        have := hgood _ ha b hb l hl e he
        rw [target_good this.1]; exact this.2⟩, Option.bind_some, List.getLast?_map, hlast _ ha, (hs _ ha).1, ← hsz]
    rw [List.map_cons, Option.map_some]
    show (if _ then _ else _) = _
    rw [if_pos]
    rw [Bool.and_eq_true]
    have hmem : ∀ b, Good N b → ∀ l, l ∈ tasksBlock N ns perm (p / ns) (p % ns) b →
        ∃ l0, l0 ∈ b ∧ l = newLine N ns perm (p / ns) (p % ns) b l0 := by
      intro b hb l hl
      rw [tasksBlock_eq hp ha _ b hb] at hl
      obtain ⟨l0, h1, h2⟩ := List.mem_map.1 hl
      exact ⟨l0, h1, h2.symm⟩
    refine ⟨List.all_eq_true.2 fun b hb => ?_, List.all_eq_true.2 fun l hl => decide_eq_true ?_⟩
    · obtain ⟨b', hb', rfl⟩ := List.mem_map.1 hb
      have hg := hgood _ ha b' (mbs _ ha b' hb')
      have hc := covered_of b' (fun l hl e he => (hg l hl e he).1) (Run.reduceOk hrun _ ha b' hb')
      unfold inside
      rw [List.all_eq_true]
      intro l hl
      obtain ⟨l0, h1, rfl⟩ := hmem b' hg l hl
      have hlen : (tasksBlock N ns perm (p / ns) (p % ns) b').length = b'.length := by
        rw [tasksBlock_eq hp ha _ b' hg, List.length_map]
      rw [hlen]
      exact (Bool.and_eq_true _ _ ▸ List.all_eq_true.1 hc l0 h1).2
    · rcases List.mem_append.1 hl with hl | hl
      · obtain ⟨l0, h1, rfl⟩ := hmem _ (hgood _ ha _ (mb0 _ ha)) l hl
        exact hfrac _ ha _ (mb0 _ ha) l0 h1
      · obtain ⟨l0, h1, rfl⟩ := hmem _ (hgood _ ha _ (mla _ ha)) l hl
        exact hfrac _ ha _ (mla _ ha) l0 h1
  · intro p
    dsimp only
    by_cases hpn : p < N * ns
    · have ha : p / ns < N := div_lt hpn
      have hr : p % ns < ns := Nat.mod_lt _ hns
      have hpe : p / ns * ns + p % ns = p := Nat.div_add_mod' p ns
      have hfr : ∀ b l, (newLine N ns perm (p / ns) (p % ns) b l).frac = l.frac := fun _ _ => rfl
      rw [if_pos hpn, nodeMaster, if_pos ha, hI, List.map_append, List.map_append,
        masterBlocks_share _ hp ha hr _ (fun b hb => hgood _ ha b (mbs _ ha b hb)), placed_share (onShm_masterBlocks _ _),
        List.cons_append, share_all, share_append, share_all, share_append,
        share_perProc (fun r i hi => ⟨_, _, _, _, mem_inOf hi⟩) hr, share_perProc (fun r i hi => by
          obtain ⟨d, s, n, e, _⟩ := mem_outOf (hOut _ ha) hi
          exact ⟨_, _, _, _, e⟩) hr]
      have e1 : (copyInT ns cnt (p / ns) (p % ns) (tasksBlock N ns perm (p / ns) (p % ns) (b0 (p / ns)))).map (placed u p) =
          .barrier :: (inOf cnt u ns (p / ns) (lo (f (p / ns)) (first (p / ns))) (p % ns) ++ [.barrier]) := by
        unfold copyInT
        rw [tasksBlock_eq hp ha _ _ (hgood _ ha _ (mb0 _ ha)), off_map (hfr _), ← hsz, List.findIdx_map]
        have : ((fun l : LineD => l.recvfrom.any fun e => e.1 == -1) ∘ newLine N ns perm (p / ns) (p % ns) (b0 (p / ns))) =
            fun l => l.recvfrom.any fun e => e.1 == -1 := by
          funext l
          exact newEntry_any _ _
        rw [this, ← hf0 _ ha, hoff _ ha, List.map_cons, List.map_append]
        unfold inOf copyIf
        rw [hpe]
        split <;> rfl
      have e2 : (copyOutAll sz (moffset sz N) 0 (tasksBlock N ns perm (p / ns) (p % ns) (last (p / ns)))).map (placed u p) =
          outOf u ns (p / ns) (copyOutAll sz (moffset sz N) 0 (last (p / ns))) (p % ns) := by
        rw [tasksBlock_eq hp ha _ _ (hgood _ ha _ (mla _ ha)), copyOutAll_map (hfr _) (fun l => newEntry_any _ _)]
        unfold outOf
        rw [hpe]
      rw [e1, e2]
      simp [toProc]
    · have ha : ¬p / ns < N := fun h => hpn (by
        have := proc_lt (Nat.mod_lt p hns) h
        rwa [Nat.div_add_mod'] at this)
      rw [if_neg hpn, nodeMaster, if_neg ha]
      rfl
  · intro t ht q i hq hi
    have hat : t / ns < N := div_lt ht
    have haq : q / ns < N := div_lt hq
    have hq' := Nat.div_add_mod' q ns
    have hcq : i < cnt (q / ns * ns + q % ns) := by rw [hq']; exact hi
    have hle : iodispl ns cnt (q / ns) (q % ns) + cnt (q / ns * ns + q % ns) ≤ sz (q / ns) := by
      rw [← hio]
      exact lo_end (fun r => cnt (q / ns * ns + r)) (Nat.mod_lt q hns)
    have h1 := (hP _ hat).1 (t % ns) (Nat.mod_lt _ hns) (q / ns) (iodispl ns cnt (q / ns) (q % ns) + i) haq (by omega)
    rw [Nat.div_add_mod', haf, (in_spec cnt u ns (q / ns) (lo (f (q / ns)) (first (q / ns))) (m (q / ns)) ns (Nat.le_refl _)).1
      (q % ns) i (Nat.mod_lt _ hns) hcq, hq'] at h1
    rw [← h1, ← lo_eq_sum]
    have h2 := lo_coarse ns cnt (q / ns) (q % ns)
    rw [hq', ← hsz] at h2
    rw [h2]
    congr 1
    rw [moffset_eq]
    omega
  · intro a ha e he
    refine (hP a ha).2.1 e fun r hr => ?_
    have := he (a * ns + r) (proc_lt hr ha) (proc_div hr a)
    rw [← lo_eq_sum, hlen] at this
    exact this
  · intro a ha
    exact (hP a ha).2.2

/-- C67 for schedules with a constant layout of the lines. -/
theorem gather_tasks {X : Type} [Add X] {N ns : Nat} {cnt : Nat → Nat} {perm : List Nat}
    {sched : Nat → List Block} {u : Users} {m : Nat → Mem X}
    (h : ∃ (prog : Nat → List Instr) (M : Nat → Master),
      (∀ p, p < N * ns → gatherProgram N ns cnt perm (sched (p / ns)) (p / ns) (p % ns) = some (prog p)) ∧
      (∀ p, (prog p).map (placed u p) = share ns (p % ns) (M (p / ns))) ∧
      MastersOk N ns M m fun mem => TAllgatherMem N ns u cnt m mem) :
    ∃ prog : Nat → List Instr,
      (∀ p, p < N * ns → gatherProgram N ns cnt perm (sched (p / ns)) (p / ns) (p % ns) = some (prog p)) ∧
      TCorrect N ns (fun p => (prog p).map (placed u p)) m fun mem => TAllgatherMem N ns u cnt m mem := by
  obtain ⟨prog, M, h1, h2, h3⟩ := h
  refine ⟨prog, h1, ?_⟩
  rw [show (fun p => (prog p).map (placed u p)) = fun p => share ns (p % ns) (M (p / ns)) from funext h2]
  exact h3.tcorrect

/-! ## Distribution of the messages -/

theorem sendsTo_task {N ns : Nat} {perm : List Nat} (hp : IsPerm N perm) {a r : Nat} (ha : a < N) (hr : r < ns) {b : Block}
    (hb : Good N b) (p' : Nat) (hne : p' / ns ≠ a) (hp' : p' < N * ns) :
    SendsTo (tasksBlock N ns perm a r b) p' ↔ SendsTo b (p' / ns) ∧ r = p' % ns ∧ sendOwner N ns perm a b (p' / ns) = r := by
  rw [tasksBlock_eq hp ha r b hb]
  have hq : p' / ns < N := div_lt hp'
  constructor
  · rintro ⟨l, hl, e, he, h⟩
    obtain ⟨l0, h0, rfl⟩ := List.mem_map.1 hl
    obtain ⟨e0, h1, rfl⟩ := List.mem_map.1 he
    have hg := hb l0 h0 e0 (List.mem_append_left _ h1)
    unfold newEntry at h
    split at h
    · omega
    · have h2 := (partner_eq ns r e0.1.toNat p' _).symm.trans (beq_iff_eq.2 h)
      rw [Bool.and_eq_true, beq_iff_eq] at h2
      have hd : e0.1.toNat = p' / ns := by rw [← h2.2, proc_div hr]
      have hm : r = p' % ns := by rw [← h2.2, proc_mod hr]
      rw [hd] at h2
      refine ⟨⟨l0, h0, e0, h1, by omega⟩, hm, ?_⟩
      have h3 := h2.1
      unfold mine at h3
      rw [Bool.or_eq_true, beq_iff_eq, beq_iff_eq] at h3
      exact h3.resolve_left (sendOff_ne hp ha hq hne)
  · rintro ⟨⟨l0, h0, e0, h1, h2⟩, hm, ho⟩
    refine ⟨_, List.mem_map.2 ⟨l0, h0, rfl⟩, _, List.mem_map.2 ⟨e0, h1, rfl⟩, ?_⟩
    unfold newEntry
    rw [if_neg (by rw [h2]; exact Int.not_lt.2 (Int.natCast_nonneg _)), h2]
    dsimp only
    rw [Int.toNat_natCast, ← beq_iff_eq (α := Int), partner_eq, Bool.and_eq_true, beq_iff_eq]
    refine ⟨?_, by rw [hm]; exact Nat.div_add_mod' _ _⟩
    unfold mine
    rw [Bool.or_eq_true, beq_iff_eq, beq_iff_eq]
    exact .inr ho

theorem receivesFrom_task {N ns : Nat} {perm : List Nat} (hp : IsPerm N perm) {a r : Nat} (ha : a < N) (hr : r < ns) {b : Block}
    (hb : Good N b) (p' : Nat) (hne : p' / ns ≠ a) (hp' : p' < N * ns) :
    ReceivesFrom (tasksBlock N ns perm a r b) p' ↔ ReceivesFrom b (p' / ns) ∧ r = p' % ns ∧ recvOwner N ns perm a b (p' / ns) = r := by
  rw [tasksBlock_eq hp ha r b hb]
  have hq : p' / ns < N := div_lt hp'
  constructor
  · rintro ⟨l, hl, e, he, h⟩
    obtain ⟨l0, h0, rfl⟩ := List.mem_map.1 hl
    obtain ⟨e0, h1, rfl⟩ := List.mem_map.1 he
    have hg := hb l0 h0 e0 (List.mem_append_right _ h1)
    unfold newEntry at h
    split at h
    · omega
    · have h2 := (partner_eq ns r e0.1.toNat p' _).symm.trans (beq_iff_eq.2 h)
      rw [Bool.and_eq_true, beq_iff_eq] at h2
      have hd : e0.1.toNat = p' / ns := by rw [← h2.2, proc_div hr]
      have hm : r = p' % ns := by rw [← h2.2, proc_mod hr]
      rw [hd] at h2
      refine ⟨⟨l0, h0, e0, h1, by omega⟩, hm, ?_⟩
      have h3 := h2.1
      unfold mine at h3
      rw [Bool.or_eq_true, beq_iff_eq, beq_iff_eq] at h3
      exact h3.resolve_left (recvOff_ne hp ha hq hne)
  · rintro ⟨⟨l0, h0, e0, h1, h2⟩, hm, ho⟩
    refine ⟨_, List.mem_map.2 ⟨l0, h0, rfl⟩, _, List.mem_map.2 ⟨e0, h1, rfl⟩, ?_⟩
    unfold newEntry
    rw [if_neg (by rw [h2]; exact Int.not_lt.2 (Int.natCast_nonneg _)), h2]
    dsimp only
    rw [Int.toNat_natCast, ← beq_iff_eq (α := Int), partner_eq, Bool.and_eq_true, beq_iff_eq]
    refine ⟨?_, by rw [hm]; exact Nat.div_add_mod' _ _⟩
    unfold mine
    rw [Bool.or_eq_true, beq_iff_eq, beq_iff_eq]
    exact .inr ho

/-- C66: the distribution works if sender and receiver agree about the local number. -/
theorem distributed_of {N ns : Nat} (hns : 0 < ns) {perm : List Nat} (hp : IsPerm N perm) {bs : Nat → Block}
    (hg : ∀ a, a < N → Good N (bs a)) {P : Nat → Nat → Prop} (hm : Messages N bs P) (hag : Agree N ns perm bs) :
    Distributed N ns bs fun p => tasksBlock N ns perm (p / ns) (p % ns) (bs (p / ns)) := by
  have hm1 : ∀ a q, a < N → q < N → a ≠ q → (ReceivesFrom (bs q) a ↔ P a q) := fun a q ha hq hne =>
    recvIdx_ne_nil.symm.trans (hm a q ha hq hne).1
  have hm2 : ∀ a q, a < N → q < N → a ≠ q → (SendsTo (bs a) q ↔ P a q) := fun a q ha hq hne =>
    sendIdx_ne_nil.symm.trans (hm a q ha hq hne).2
  have so : ∀ a b q, sendOwner N ns perm a b q < ns := fun a b q => Nat.mod_lt _ hns
  have ro : ∀ a b q, recvOwner N ns perm a b q < ns := fun a b q => Nat.mod_lt _ hns
  refine ⟨fun a q ha hq hne => ⟨fun h => ?_, ?_⟩, fun a q ha hq hne => ⟨fun h => ?_, ?_⟩, ?_, ?_⟩
  · refine ⟨a * ns + sendOwner N ns perm a (bs a) q, proc_div (so _ _ _) _, q * ns + sendOwner N ns perm a (bs a) q,
      proc_div (so _ _ _) _, ?_⟩
    rw [proc_div (so _ _ _), proc_mod (so _ _ _), sendsTo_task hp ha (so _ _ _) (hg a ha) _ (by rw [proc_div (so _ _ _)]; exact hne.symm)
      (proc_lt (so _ _ _) hq), proc_div (so _ _ _), proc_mod (so _ _ _)]
    exact ⟨h, rfl, rfl⟩
  · rintro ⟨p, h1, p', h2, h⟩
    have hp' : p' < N * ns := by
      have := proc_lt (Nat.mod_lt p' hns) (h2 ▸ hq)
      rwa [Nat.div_add_mod'] at this
    rw [h1, sendsTo_task hp ha (Nat.mod_lt _ hns) (hg a ha) p' (by rw [h2]; exact hne.symm) hp', h2] at h
    exact h.1
  · refine ⟨q * ns + recvOwner N ns perm q (bs q) a, proc_div (ro _ _ _) _, a * ns + recvOwner N ns perm q (bs q) a,
      proc_div (ro _ _ _) _, ?_⟩
    rw [proc_div (ro _ _ _), proc_mod (ro _ _ _), receivesFrom_task hp hq (ro _ _ _) (hg q hq) _ (by rw [proc_div (ro _ _ _)]; exact hne)
      (proc_lt (ro _ _ _) ha), proc_div (ro _ _ _), proc_mod (ro _ _ _)]
    exact ⟨h, rfl, rfl⟩
  · rintro ⟨p, h1, p', h2, h⟩
    have hp' : p' < N * ns := by
      have := proc_lt (Nat.mod_lt p' hns) (h2 ▸ ha)
      rwa [Nat.div_add_mod'] at this
    rw [h1, receivesFrom_task hp hq (Nat.mod_lt _ hns) (hg q hq) p' (by rw [h2]; exact hne) hp', h2] at h
    exact h.1
  · intro p p' q q' hpn hqn hne hp' hq' e1 e2 h1 h2
    rw [sendsTo_task hp (div_lt hpn) (Nat.mod_lt _ hns) (hg _ (div_lt hpn)) p' hne.symm hp'] at h1
    rw [← e1, sendsTo_task hp (div_lt hpn) (Nat.mod_lt _ hns) (hg _ (div_lt hpn)) q' (by rw [← e2]; exact hne.symm) hq', ← e2] at h2
    have a1 := Nat.div_add_mod' p ns
    have a2 := Nat.div_add_mod' q ns
    have a3 := Nat.div_add_mod' p' ns
    have a4 := Nat.div_add_mod' q' ns
    rw [← e1] at a2
    rw [← e2] at a4
    have b1 := h1.2.1
    have b2 := h2.2.1
    have b3 := h1.2.2.symm.trans h2.2.2
    omega
  · intro p p' hpn hpn' hne
    rw [sendsTo_task hp (div_lt hpn) (Nat.mod_lt _ hns) (hg _ (div_lt hpn)) p' hne.symm hpn',
      receivesFrom_task hp (div_lt hpn') (Nat.mod_lt _ hns) (hg _ (div_lt hpn')) p hne hpn,
      hm1 _ _ (div_lt hpn) (div_lt hpn') hne, hm2 _ _ (div_lt hpn) (div_lt hpn') hne]
    have hagg : P (p / ns) (p' / ns) → _ := fun h => hag _ _ (div_lt hpn) (div_lt hpn') hne ((hm _ _ (div_lt hpn) (div_lt hpn') hne).1.2 h)
    constructor
    · rintro ⟨h1, h2, h3⟩
      exact ⟨h1, h2.symm, by rw [← hagg h1, h3, h2]⟩
    · rintro ⟨h1, h2, h3⟩
      exact ⟨h1, h2.symm, by rw [hagg h1, h3, h2]⟩

/-- The recursive schedules after the relabelling. -/
theorem relabelled_recursive (ports : List Nat) {N : Nat} (hN : N = Recursive.factor ports) {perm : List Nat} (hperm : IsPerm N perm) :
    ∃ π ρ : Nat → Nat, Inverse N π ρ ∧ (∀ t, t < N → perm[t]? = some (π t)) ∧
      (∀ t, t < N → ∀ b, b ∈ Recursive.allgather ports t → (∀ l, l ∈ b → LineOk N l) ∧ Separate N t b ∧ Shape N b ∧
        Good N (b.map (rl π))) ∧
      Relabelled N perm (Recursive.allgather ports) (fun x => (Recursive.allgather ports (ρ x)).map fun b => b.map (rl π)) ∧
      ∀ k, ∃ P : Nat → Nat → Prop, (∀ a q c, P a q → (P c q ↔ P a c)) ∧
        Messages N (fun x => ((Recursive.allgather ports (ρ x)).map fun b => b.map (rl π)).getD k []) P := by
  obtain ⟨π, ρ, hi, hπ, hρ⟩ := inverse_of N perm hperm
  have hblk : ∀ t, t < N → ∀ b, b ∈ Recursive.allgather ports t →
      (∀ l, l ∈ b → LineOk N l) ∧ Separate N t b ∧ Shape N b ∧ Good N (b.map (rl π)) := fun t ht b hb => by
    obtain ⟨h1, h2, h3⟩ := allgather_blocks ports (hN ▸ ht) b hb
    rw [← hN] at h1 h2 h3
    refine ⟨h1, h2, hN ▸ shape_allgather ports t b hb, ?_⟩
    intro l hl e he
    obtain ⟨l0, h0, rfl⟩ := List.mem_map.1 hl
    have hmap : (rl π l0).sendto ++ (rl π l0).recvfrom = (l0.sendto ++ l0.recvfrom).map (rp π) := List.map_append.symm
    rw [hmap] at he
    obtain ⟨e0, h1, rfl⟩ := List.mem_map.1 he
    have := h3 l0 h0 e0 h1
    unfold rp
    split
    · have := hi.lt e0.1.toNat (by omega)
      dsimp only
      omega
    · exact this
  refine ⟨π, ρ, hi, hπ, hblk, fun x hx => ⟨ρ x, hρ x hx, relabel_eq N perm π hπ _ fun b hb => (hblk _ (hi.lt' x hx) b hb).1⟩,
    fun k => ?_⟩
  have e : ∀ t, (((Recursive.allgather ports (ρ t)).map fun b => b.map (rl π)).getD k []) =
      ((Recursive.allgather ports (ρ t)).getD k []).map (rl π) := by
    intro t
    rw [List.getD_eq_getElem?_getD, List.getD_eq_getElem?_getD, List.getElem?_map]
    cases (Recursive.allgather ports (ρ t))[k]? <;> rfl
  simp only [e]
  have hmsg : ∃ P : Nat → Nat → Prop, (∀ a q c, P a q → (P c q ↔ P a c)) ∧
      Messages N (fun t => (Recursive.allgather ports t).getD k []) P := by
    cases k with
    | zero => exact ⟨fun _ _ => False, fun a q c h => h.elim, messages_quiet fun a _ => quiet_first _ _⟩
    | succ k =>
      obtain ⟨P, hc, hm⟩ := allgather_messages ports k
      rw [← hN] at hm
      exact ⟨P, hc, hm⟩
  obtain ⟨P, hc, hm⟩ := hmsg
  refine ⟨fun a q => P (ρ a) (ρ q), fun a q c h => hc _ _ _ h, messages_rl hi (bs := fun t => (Recursive.allgather ports t).getD k []) (fun t ht l hl => ?_) hm⟩
  rw [List.getD_eq_getElem?_getD] at hl
  cases hk : (Recursive.allgather ports t)[k]? with
  | none => rw [hk] at hl; cases hl
  | some b =>
    rw [hk] at hl
    exact (hblk t ht b (List.mem_of_getElem? hk)).1 l hl

theorem tasks_some {N ns : Nat} {perm : List Nat} (hp : IsPerm N perm) {a r : Nat} (ha : a < N) {bs : List Block}
    (hg : ∀ b, b ∈ bs → Good N b) : tasks N ns perm a r bs = some (bs.map (tasksBlock N ns perm a r)) := by
  unfold tasks
  rw [if_pos]
  refine ⟨by simpa using hp.length_eq, fun x hx => List.mem_range.1 (hp.mem_iff.1 hx), fun x hx => ?_, ha, fun b hb l hl e he => ?_⟩
  · obtain ⟨i, h, _⟩ := back_spec N perm hp x hx
    rw [h]; rfl
  · have := hg b hb l hl e he
    rw [target_good this.1]; exact this.2

theorem getD_map_nil {f : Block → Block} (hf : f [] = []) (l : List Block) (k : Nat) : (l.map f).getD k [] = f (l.getD k []) := by
  rw [List.getD_eq_getElem?_getD, List.getD_eq_getElem?_getD, List.getElem?_map]
  cases l[k]? with
  | none => exact hf.symm
  | some b => rfl

/-- C66, recursive algorithm, any permutation of the nodes. -/
theorem distributed_recursive (ports : List Nat) (hp : ∀ p, p ∈ ports → 0 < p) {ns : Nat} (hns : 0 < ns) (perm : List Nat)
    (hperm : IsPerm (ports.map fun p => p + 1).prod perm) :
    ∃ sched sched' ts : Nat → List Block,
      (∀ t, Recursive.generate true (ports.map fun p : Nat => (p : Int)) t = some (sched t)) ∧
      Relabelled (ports.map fun p => p + 1).prod perm sched sched' ∧
      (∀ p, p < (ports.map fun p => p + 1).prod * ns →
        tasks (ports.map fun p => p + 1).prod ns perm (p / ns) (p % ns) (sched' (p / ns)) = some (ts p)) ∧
      ∀ k, Distributed (ports.map fun p => p + 1).prod ns (fun a => (sched' a).getD k []) fun p => (ts p).getD k [] := by
  obtain ⟨N, hN⟩ : ∃ N, N = Recursive.factor ports := ⟨_, rfl⟩
  have hNp : (ports.map fun p => p + 1).prod = N := hN.symm
  rw [hNp] at hperm ⊢
  obtain ⟨π, ρ, hi, hπ, hblk, hrel, hmsg⟩ := relabelled_recursive ports hN hperm
  refine ⟨Recursive.allgather ports, _, fun p => ((Recursive.allgather ports (ρ (p / ns))).map fun b => b.map (rl π)).map
    (tasksBlock N ns perm (p / ns) (p % ns)), Recursive.generate_allgather ports hp, hrel, fun p hpn => ?_, fun k => ?_⟩
  · apply tasks_some hperm (div_lt hpn)
    intro b hb
    obtain ⟨b0, h0, rfl⟩ := List.mem_map.1 hb
    exact (hblk _ (hi.lt' _ (div_lt hpn)) b0 h0).2.2.2
  · obtain ⟨P, hc, hm⟩ := hmsg k
    have hg : ∀ a, a < N → Good N (((Recursive.allgather ports (ρ a)).map fun b => b.map (rl π)).getD k []) := by
      intro a ha
      rw [List.getD_eq_getElem?_getD, List.getElem?_map]
      cases hk : (Recursive.allgather ports (ρ a))[k]? with
      | none => intro l hl; cases hl
      | some b => exact (hblk _ (hi.lt' a ha) b (List.mem_of_getElem? hk)).2.2.2
    have := distributed_of hns hperm hg hm (agree_clique hperm hg hm fun a q c _ _ _ _ _ _ h => hc _ _ _ h)
    have e : ∀ p, (((Recursive.allgather ports (ρ (p / ns))).map fun b => b.map (rl π)).map (tasksBlock N ns perm (p / ns) (p % ns))).getD k []
        = tasksBlock N ns perm (p / ns) (p % ns) (((Recursive.allgather ports (ρ (p / ns))).map fun b => b.map (rl π)).getD k []) :=
      fun p => getD_map_nil rfl _ _
    simp only [e]
    exact this

/-- C66, cyclic algorithm, nodes that are not relabelled. -/
theorem distributed_cyclic_partial (N : Nat) (hN : 0 < N) (ports : List Nat) (hp : ∀ p, p ∈ ports → 0 < p)
    (hfit : Cyclic.Suits N 1 ports) {ns : Nat} (hns : 0 < ns) :
    ∃ ts : Nat → List Block,
      (∀ p, p < N * ns → tasks N ns (List.range N) (p / ns) (p % ns) (Cyclic.allgather N ports (p / ns)) = some (ts p)) ∧
      ∀ k, Distributed N ns (fun a => (Cyclic.allgather N ports a).getD k []) fun p => (ts p).getD k [] := by
  refine ⟨fun p => (Cyclic.allgather N ports (p / ns)).map (tasksBlock N ns (List.range N) (p / ns) (p % ns)), fun p hpn => ?_, fun k => ?_⟩
  · exact tasks_some (isPerm_range N) (div_lt hpn) fun b hb => callgather_good hN ports hfit (div_lt hpn) b hb
  · have hmsg : ∃ P : Nat → Nat → Prop,
        (∀ a q a' q', a < N → q < N → a' < N → q' < N → (a + N - q) % N = (a' + N - q') % N → (P a q ↔ P a' q')) ∧
        Messages N (fun t => (Cyclic.allgather N ports t).getD k []) P := by
      cases k with
      | zero =>
        refine ⟨fun _ _ => False, fun _ _ _ _ _ _ _ _ _ => Iff.rfl, messages_quiet fun a _ => ?_⟩
        intro l hl e he
        obtain ⟨x, _, rfl⟩ := List.mem_map.1 hl
        rw [List.nil_append] at he
        rw [List.mem_singleton.1 he]
      | succ k => exact callgather_messages ports hp hfit hN k
    obtain ⟨P, hc, hm⟩ := hmsg
    have hg : ∀ a, a < N → Good N ((Cyclic.allgather N ports a).getD k []) := by
      intro a ha
      rw [List.getD_eq_getElem?_getD]
      cases hk : (Cyclic.allgather N ports a)[k]? with
      | none => intro l hl; cases hl
      | some b => exact callgather_good hN ports hfit ha b (List.mem_of_getElem? hk)
    have := distributed_of hns (isPerm_range N) hg hm (agree_shift hg hm hc)
    have e : ∀ p, ((Cyclic.allgather N ports (p / ns)).map (tasksBlock N ns (List.range N) (p / ns) (p % ns))).getD k []
        = tasksBlock N ns (List.range N) (p / ns) (p % ns) ((Cyclic.allgather N ports (p / ns)).getD k []) :=
      fun p => getD_map_nil rfl _ _
    simp only [e]
    exact this

/-! ## The recursive and the cyclic algorithm -/

/-- Programs of the recursive algorithm. -/
theorem recursive_masters {X : Type} [AddCommSemigroup X] (ports : List Nat) (hp : ∀ p, p ∈ ports → 0 < p) {ns : Nat} (hns : 0 < ns)
    (cnt : Nat → Nat) (perm : List Nat) (hperm : IsPerm (ports.map fun p => p + 1).prod perm) (u : Users) (m : Nat → Mem X)
    (hA : Apart ns u (∑ k ∈ Finset.range ((ports.map fun p => p + 1).prod * ns), cnt k)) :
    ∃ (sched sched' : Nat → List Block) (prog : Nat → List Instr) (M : Nat → Master),
      (∀ t, Recursive.generate true (ports.map fun p : Nat => (p : Int)) t = some (sched t)) ∧
      Relabelled (ports.map fun p => p + 1).prod perm sched sched' ∧
      (∀ p, p < (ports.map fun p => p + 1).prod * ns →
        gatherProgram (ports.map fun p => p + 1).prod ns cnt perm (sched' (p / ns)) (p / ns) (p % ns) = some (prog p)) ∧
      (∀ p, (prog p).map (placed u p) = share ns (p % ns) (M (p / ns))) ∧
      MastersOk (ports.map fun p => p + 1).prod ns M m
        fun mem => TAllgatherMem (ports.map fun p => p + 1).prod ns u cnt m mem := by
  obtain ⟨N, hN⟩ : ∃ N, N = Recursive.factor ports := ⟨_, rfl⟩
  have hNp : (ports.map fun p => p + 1).prod = N := hN.symm
  rw [hNp] at hperm hA ⊢
  have hpos : 0 < N := hN ▸ Recursive.factor_pos _
  obtain ⟨π, ρ, hi, hπ, hblk, hrel, hmsg⟩ := relabelled_recursive ports hN hperm
  obtain ⟨prog, M, h1, h2⟩ := gather_masters (X := X) hns cnt hperm
    (fun x => (Recursive.allgather ports (ρ x)).map fun b => b.map (rl π)) u m (fun _ n => coarse ns cnt (π (n % N))) hA
    (fun inp' junk' => by
      obtain ⟨out, he, hpost⟩ := Recursive.allgather_exec ports (fun t f => inp' (π t) (π f)) (fun t => junk' (π t))
      rw [← hN] at he hpost
      obtain ⟨out', he', ho⟩ := relabel_exec N perm hperm _ _ hrel (fun t ht b hb => ⟨(hblk t ht b hb).1, (hblk t ht b hb).2.1⟩)
        (fun t f => inp' (π t) (π f)) inp' (fun t => junk' (π t)) junk'
        (fun t f x g hx hg => by
          have hlen : perm.length = N := by simpa using hperm.length_eq
          have ht : t < N := by have := (List.getElem?_eq_some_iff.1 hx).1; omega
          have hf : f < N := by have := (List.getElem?_eq_some_iff.1 hg).1; omega
          rw [hπ t ht] at hx
          rw [hπ f hf] at hg
          cases hx; cases hg; rfl)
        (fun t x hx => by
          have hlen : perm.length = N := by simpa using hperm.length_eq
          have ht : t < N := by have := (List.getElem?_eq_some_iff.1 hx).1; omega
          rw [hπ t ht] at hx
          cases hx; rfl) out he
      refine ⟨out', he', fun t q ht hq => ?_⟩
      rw [ho (ρ t) (ρ q) t q (by rw [hπ _ (hi.lt' t ht), hi.right t ht]) (by rw [hπ _ (hi.lt' q hq), hi.right q hq]),
        hpost _ _ (hi.lt' t ht) (hi.lt' q hq)]
      dsimp only
      rw [hi.right q hq])
    (fun t ht b hb => by
      obtain ⟨b0, hb0, rfl⟩ := List.mem_map.1 hb
      intro n hn
      rw [List.length_map] at hn
      have hs := (hblk _ (hi.lt' t ht) b0 hb0).2.2.1 n _ (List.getElem?_eq_getElem hn)
      rw [lineSize, List.getElem?_map, List.getElem?_eq_getElem hn]
      show mmsize N (coarse ns cnt) (π (b0[n].frac)) = _
      rw [mmsize, hs.1, Nat.mod_eq_of_lt (hi.lt _ (Nat.mod_lt _ hpos))])
    (fun t ht b hb => by
      obtain ⟨b0, hb0, rfl⟩ := List.mem_map.1 hb
      exact (hblk _ (hi.lt' t ht) b0 hb0).2.2.2)
    (fun t ht b hb l hl => by
      obtain ⟨b0, hb0, rfl⟩ := List.mem_map.1 hb
      obtain ⟨l0, h0, rfl⟩ := List.mem_map.1 hl
      exact hi.lt _ ((hblk _ (hi.lt' t ht) b0 hb0).1 l0 h0).1)
    (fun t ht b hb => by
      rw [Recursive.allgather, List.map_cons, List.head?_cons] at hb
      cases hb
      have ht' := hi.lt' t ht
      rw [← hN]
      refine ⟨ρ t, rl π { frac := ρ t, recvfrom := [(-1, 0)] }, ?_, hi.right t ht, fun j l hl => ?_⟩
      · unfold Recursive.gatherFirst Recursive.mk
        rw [List.getElem?_map, List.getElem?_map, List.getElem?_range ht']
        simp
      · rw [List.getElem?_map] at hl
        obtain ⟨l0, hl0, rfl⟩ := Option.map_eq_some_iff.1 hl
        obtain ⟨_, rfl⟩ := mk_get hl0
        by_cases hj : j = ρ t
        · simp [hj, rl, rp]
        · simp [hj, rl])
    (fun k hk => by
      obtain ⟨P, hc, hm⟩ := hmsg (k + 1)
      refine agree_clique hperm (fun a ha => ?_) hm fun a q c _ _ _ _ _ _ h => hc _ _ _ h
      have hk' := hk a ha
      rw [List.getD_eq_getElem?_getD, List.getElem?_eq_getElem hk']
      have := List.mem_of_mem_tail (List.getElem_mem hk')
      obtain ⟨b0, h0, h1⟩ := List.mem_map.1 this
      rw [Option.getD_some, ← h1]
      exact (hblk _ (hi.lt' a ha) b0 h0).2.2.2)
  exact ⟨Recursive.allgather ports, _, prog, M, Recursive.generate_allgather ports hp, hrel, h1, h2⟩

/-- C67, recursive algorithm, with any permutation of the nodes. -/
theorem allgather_recursive {X : Type} [AddCommSemigroup X] (ports : List Nat) (hp : ∀ p, p ∈ ports → 0 < p) {ns : Nat} (hns : 0 < ns)
    (cnt : Nat → Nat) (perm : List Nat) (hperm : IsPerm (ports.map fun p => p + 1).prod perm) (u : Users) (m : Nat → Mem X)
    (hA : Apart ns u (∑ k ∈ Finset.range ((ports.map fun p => p + 1).prod * ns), cnt k)) :
    ∃ (sched sched' : Nat → List Block) (prog : Nat → List Instr),
      (∀ t, Recursive.generate true (ports.map fun p : Nat => (p : Int)) t = some (sched t)) ∧
      Relabelled (ports.map fun p => p + 1).prod perm sched sched' ∧
      (∀ p, p < (ports.map fun p => p + 1).prod * ns →
        gatherProgram (ports.map fun p => p + 1).prod ns cnt perm (sched' (p / ns)) (p / ns) (p % ns) = some (prog p)) ∧
      TCorrect (ports.map fun p => p + 1).prod ns (fun p => (prog p).map (placed u p)) m
        fun mem => TAllgatherMem (ports.map fun p => p + 1).prod ns u cnt m mem := by
  obtain ⟨sched, sched', prog, M, h1, h2, h3⟩ := recursive_masters (X := X) ports hp hns cnt perm hperm u m hA
  obtain ⟨prog', h4⟩ := gather_tasks ⟨prog, M, h3⟩
  exact ⟨sched, sched', prog', h1, h2, h4⟩

/-- Programs of the cyclic algorithm. -/
theorem cyclic_masters {X : Type} [Add X] (N : Nat) (hN : 0 < N) (ports : List Nat) (hp : ∀ p, p ∈ ports → 0 < p)
    (hfit : Cyclic.Suits N 1 ports) (hreach : N ≤ (ports.map fun p => p + 1).prod) {ns : Nat} (hns : 0 < ns) (cnt : Nat → Nat)
    (u : Users) (m : Nat → Mem X) (hA : Apart ns u (∑ k ∈ Finset.range (N * ns), cnt k)) :
    ∃ (prog : Nat → List Instr) (M : Nat → Master),
      (∀ p, p < N * ns → gatherProgram N ns cnt (List.range N) (Cyclic.allgather N ports (p / ns)) (p / ns) (p % ns) = some (prog p)) ∧
      (∀ p, (prog p).map (placed u p) = share ns (p % ns) (M (p / ns))) ∧
      MastersOk N ns M m fun mem => TAllgatherMem N ns u cnt m mem :=
  gather_masters hns cnt (isPerm_range N) (Cyclic.allgather N ports) u m (fun t n => coarse ns cnt ((t + n) % N)) hA
    (fun inp junk => Cyclic.allgather_exec N hN ports hp hfit hreach inp junk)
    (fun t ht b hb => by
      intro n hn
      rw [lineSize, List.getElem?_eq_getElem hn]
      dsimp only
      rw [mmsize, (shifted_allgather N t ht ports hfit b hb n _ (List.getElem?_eq_getElem hn)).1, Nat.mod_mod])
    (fun t ht b hb => callgather_good hN ports hfit ht b hb)
    (fun t ht b hb l hl => by
      obtain ⟨n, hn⟩ := List.getElem?_of_mem hl
      rw [(shifted_allgather N t ht ports hfit b hb n l hn).1]
      exact Nat.mod_lt _ hN)
    (fun t ht b hb => by
      unfold Cyclic.allgather at hb
      rw [List.head?_cons] at hb
      cases hb
      refine ⟨0, { frac := t, recvfrom := [(-1, 0)] }, rfl, rfl, fun j l hl => ?_⟩
      obtain ⟨hj, rfl⟩ := mk_get hl
      simp; omega)
    (fun k hk => by
      obtain ⟨P, hc, hm⟩ := callgather_messages ports hp hfit hN k
      refine agree_shift (fun a ha => callgather_good hN ports hfit ha _ ?_) hm hc
      have hk' := hk a ha
      rw [List.getD_eq_getElem?_getD, List.getElem?_eq_getElem hk']
      exact List.mem_of_mem_tail (List.getElem_mem hk'))

/-- C67, cyclic algorithm, nodes that are not relabelled, lists of ports that suit (C14). -/
theorem allgather_cyclic_partial {X : Type} [Add X] (N : Nat) (hN : 0 < N) (ports : List Nat) (hp : ∀ p, p ∈ ports → 0 < p)
    (hfit : Cyclic.Suits N 1 ports) (hreach : N ≤ (ports.map fun p => p + 1).prod) {ns : Nat} (hns : 0 < ns) (cnt : Nat → Nat)
    (u : Users) (m : Nat → Mem X) (hA : Apart ns u (∑ k ∈ Finset.range (N * ns), cnt k)) :
    ∃ prog : Nat → List Instr,
      (∀ p, p < N * ns → gatherProgram N ns cnt (List.range N) (Cyclic.allgather N ports (p / ns)) (p / ns) (p % ns) = some (prog p)) ∧
      TCorrect N ns (fun p => (prog p).map (placed u p)) m fun mem => TAllgatherMem N ns u cnt m mem :=
  gather_tasks (cyclic_masters N hN ports hp hfit hreach hns cnt u m hA)

/-! ## The cyclic algorithm on relabelled nodes -/

/-- Elements of eight processes on four nodes. -/
def unevenCounts (p : Nat) : Nat := [1, 0, 1, 1, 2, 1, 2, 2].getD p 0

/-- The schedules of the cyclic algorithm for the four nodes after the relabelling. -/
def unevenSchedule (x : Nat) : List Block :=
  ((back [0, 3, 1, 2] x).bind fun t => relabel [0, 3, 1, 2] (Cyclic.allgather 4 [2, 1] t)).getD []

/-- The programs of the eight processes. -/
def unevenProgram (p : Nat) : List Instr :=
  (gatherProgram 4 2 unevenCounts [0, 3, 1, 2] (unevenSchedule (p / 2)) (p / 2) (p % 2)).getD []

/-- The processes of these programs. -/
def unevenTasks (p : Nat) : List Block :=
  (tasks 4 2 [0, 3, 1, 2] (p / 2) (p % 2) (unevenSchedule (p / 2))).getD []

theorem uneven_relabelled : heuristic sortStably ((List.range 4).map fun a => ((coarse 2 unevenCounts a : Nat) : Int)) = some [0, 3, 1, 2] ∧
    IsPerm 4 [0, 3, 1, 2] ∧ Relabelled 4 [0, 3, 1, 2] (Cyclic.allgather 4 [2, 1]) unevenSchedule := by
  refine ⟨by decide +kernel, by unfold IsPerm; decide, ?_⟩
  intro x hx
  have h : ∀ x, x < 4 → ((back [0, 3, 1, 2] x).bind fun t => relabel [0, 3, 1, 2] (Cyclic.allgather 4 [2, 1] t)).isSome = true := by
    decide +kernel
  obtain ⟨b, hb⟩ := Option.isSome_iff_exists.1 (h x hx)
  unfold unevenSchedule
  rw [hb]
  obtain ⟨t, h1, h2⟩ := Option.bind_eq_some_iff.1 hb
  exact ⟨t, h1, h2⟩

/-- C66 is violated for the cyclic algorithm when the nodes are relabelled: the sizes 1, 2, 3, 4 of the nodes lead to the
order 0, 3, 1, 2, and then process 4 sends to process 2, which does not receive from it. -/
theorem distributed_violated : ∃ (sched' ts : Nat → List Block) (k : Nat),
    Relabelled 4 [0, 3, 1, 2] (Cyclic.allgather 4 [2, 1]) sched' ∧
    (∀ p, p < 4 * 2 → tasks 4 2 [0, 3, 1, 2] (p / 2) (p % 2) (sched' (p / 2)) = some (ts p)) ∧
    SendsTo ((ts 4).getD k []) 2 ∧ ¬ReceivesFrom ((ts 2).getD k []) 4 := by
  refine ⟨unevenSchedule, unevenTasks, 1, uneven_relabelled.2.2, fun p hp => ?_, ?_, ?_⟩
  · have h : ∀ p, p < 4 * 2 → (tasks 4 2 [0, 3, 1, 2] (p / 2) (p % 2) (unevenSchedule (p / 2))).isSome = true := by decide +kernel
    obtain ⟨b, hb⟩ := Option.isSome_iff_exists.1 (h p hp)
    unfold unevenTasks
    rw [hb]; rfl
  · have : sendIdx ((unevenTasks 4).getD 1 []) 2 ≠ [] := by decide +kernel
    exact sendIdx_ne_nil.1 this
  · have : recvIdx ((unevenTasks 2).getD 1 []) 4 = [] := by decide +kernel
    exact fun h => recvIdx_ne_nil.2 h this

/-- C67 is violated for the cyclic algorithm when the nodes are relabelled: the programs cannot end. -/
theorem allgather_cyclic_violated : ∃ (sched' : Nat → List Block) (prog : Nat → List Instr),
    heuristic sortStably ((List.range 4).map fun a => ((coarse 2 unevenCounts a : Nat) : Int)) = some [0, 3, 1, 2] ∧
    Relabelled 4 [0, 3, 1, 2] (Cyclic.allgather 4 [2, 1]) sched' ∧
    (∀ p, p < 4 * 2 → gatherProgram 4 2 unevenCounts [0, 3, 1, 2] (sched' (p / 2)) (p / 2) (p % 2) = some (prog p)) ∧
    ∀ (u : Users) (m : Nat → Mem Nat) (post : (Nat → Mem Nat) → Prop),
      ¬TCorrect 4 2 (fun p => (prog p).map (placed u p)) m post := by
  refine ⟨unevenSchedule, unevenProgram, uneven_relabelled.1, uneven_relabelled.2.2, fun p hp => ?_, fun u m post h => ?_⟩
  · have h : ∀ p, p < 4 * 2 →
        (gatherProgram 4 2 unevenCounts [0, 3, 1, 2] (unevenSchedule (p / 2)) (p / 2) (p % 2)).isSome = true := by decide +kernel
    obtain ⟨b, hb⟩ := Option.isSome_iff_exists.1 (h p hp)
    unfold unevenProgram
    rw [hb]; rfl
  · have h1 := tcorrect_matched h (p := 4) (p' := 2) (by decide) (by decide)
    rw [sendCount_placed, recvCount_placed] at h1
    exact absurd h1 (by decide +kernel)

/-! ## Examples -/

/-- Two processes per node, send buffers at 0, 100 and receive buffers at 0, 1000. -/
def twoUsers : Users := ⟨fun p => p % 2 * 100, fun p => p % 2 * 1000⟩

theorem twoUsers_apart {len : Nat} (h : len ≤ 1000) : Apart 2 twoUsers len := by
  intro p p' hne hq
  have h1 : p % 2 ≠ p' % 2 := by omega
  unfold overlap twoUsers
  simp only [not_and]
  intro _
  omega

/-- Six nodes with two processes each, relabelled, counts 0, 1, 2, ... -/
example (m : Nat → Mem Nat) : ∃ (sched sched' : Nat → List Block) (prog : Nat → List Instr),
    (∀ t, Recursive.generate true [2, 1] t = some (sched t)) ∧ Relabelled 6 [1, 2, 0, 4, 5, 3] sched sched' ∧
    (∀ p, p < 6 * 2 → gatherProgram 6 2 (fun k => k) [1, 2, 0, 4, 5, 3] (sched' (p / 2)) (p / 2) (p % 2) = some (prog p)) ∧
    TCorrect 6 2 (fun p => (prog p).map (placed twoUsers p)) m fun mem => TAllgatherMem 6 2 twoUsers (fun k => k) m mem :=
  allgather_recursive [2, 1] (by decide) (by decide) (fun k => k) [1, 2, 0, 4, 5, 3] (by show IsPerm 6 _; unfold IsPerm; decide) twoUsers m
    (twoUsers_apart (by decide))

/-- Seven nodes with two processes each, three steps. -/
example (m : Nat → Mem Nat) : ∃ prog : Nat → List Instr,
    (∀ p, p < 7 * 2 → gatherProgram 7 2 (fun k => 3 * k) (List.range 7) (Cyclic.allgather 7 [1, 2, 1] (p / 2)) (p / 2) (p % 2) = some (prog p)) ∧
    TCorrect 7 2 (fun p => (prog p).map (placed twoUsers p)) m fun mem => TAllgatherMem 7 2 twoUsers (fun k => 3 * k) m mem :=
  allgather_cyclic_partial 7 (by decide) [1, 2, 1] (by decide) (by simp [Cyclic.Suits, Cyclic.Tight]) (by decide) (by decide) _ twoUsers m
    (twoUsers_apart (by decide))

/-- Nine processes on three nodes, order 2, 0, 1. -/
example : ∃ sched sched' ts : Nat → List Block,
    (∀ t, Recursive.generate true [2] t = some (sched t)) ∧ Relabelled 3 [2, 0, 1] sched sched' ∧
    (∀ p, p < 3 * 3 → tasks 3 3 [2, 0, 1] (p / 3) (p % 3) (sched' (p / 3)) = some (ts p)) ∧
    ∀ k, Distributed 3 3 (fun a => (sched' a).getD k []) fun p => (ts p).getD k [] :=
  distributed_recursive [2] (by decide) (by decide) [2, 0, 1] (by show IsPerm 3 _; unfold IsPerm; decide)

example : ∃ ts : Nat → List Block,
    (∀ p, p < 5 * 2 → tasks 5 2 (List.range 5) (p / 2) (p % 2) (Cyclic.allgather 5 [2, 1] (p / 2)) = some (ts p)) ∧
    ∀ k, Distributed 5 2 (fun a => (Cyclic.allgather 5 [2, 1] a).getD k []) fun p => (ts p).getD k [] :=
  distributed_cyclic_partial 5 (by decide) [2, 1] (by decide) (by simp [Cyclic.Suits, Cyclic.Tight]) (by decide)

end ExtMpi.TasksNode
