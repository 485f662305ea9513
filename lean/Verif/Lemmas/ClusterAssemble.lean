import Verif.Props.TasksNode
import Verif.Lemmas.ClusterSum
import Verif.Lemmas.ClusterLines
import Verif.Lemmas.ClusterCut
import Verif.Lemmas.ClusterCopyLines
/-! The whole programs of the processes of several nodes. -/
namespace ExtMpi.Cluster
open RawCode Schedule RankPerm
open TasksNode
open OnNode (Skel Item Elem R Cell LineOk Par sig lineOk_sig)

theorem share_copy {ns r : Nat} {M : Master} {red : Bool} {d s : Addr} {n : Nat} (h : Instr.copy red d s n ∈ share ns r M) :
    Instr.copy red d s n ∈ M.map Prod.snd := by
  unfold share at h
  obtain ⟨x, hx, h⟩ := List.mem_filterMap.1 h
  split at h
  · refine List.mem_map.2 ⟨x, hx, ?_⟩
    obtain ⟨o, i⟩ := x
    cases i <;> cases h
    rfl
  · cases h

/-- The actions of a program that is a share. -/
theorem expand_share {X : Type} [Add X] {N ns : Nat} {M : Nat → Master} {m : Nat → Mem X} {post : (Nat → Mem X) → Prop}
    (h : MastersOk N ns M m post) {u : Users} {p : Nat} (hp : p < N * ns) {l : List Instr}
    (hl : l.map (placed u p) = share ns (p % ns) (M (p / ns))) :
    l.flatMap (expand ns u p) = (share ns (p % ns) (M (p / ns))).flatMap (expandRaw ns (p % ns)) := by
  obtain ⟨k, e, h1, h2, _⟩ := h.run
  rw [← hl]
  refine expand_placed l fun red d s n hm => ?_
  rw [hl] at hm
  exact run_apart h1 h2 (p / ns) (div_lt hp) red d s n (share_copy hm)

/-- The lines of a program that is a share. -/
theorem lines_share {X : Type} [Add X] {N ns : Nat} {M : Nat → Master} {m : Nat → Mem X} {post : (Nat → Mem X) → Prop}
    (h : MastersOk N ns M m post) {u : Users} {p : Nat} (hp : p < N * ns) {l : List Instr}
    (hl : l.map (placed u p) = share ns (p % ns) (M (p / ns))) :
    l.map (outLine ns u p) = (share ns (p % ns) (M (p / ns))).map (rawLine ns (p % ns)) := by
  obtain ⟨k, e, h1, h2, _⟩ := h.run
  rw [← hl]
  refine outLine_placed l fun red d s n hm => ?_
  rw [hl] at hm
  exact run_apart h1 h2 (p / ns) (div_lt hp) red d s n (share_copy hm)

/-- From instructions of the nodes to programs of the processes. -/
theorem cluster_of_masters {X : Type} [Add X] {N ns : Nat} (hns : 0 < ns) (u : Users) (S : Nat → Skel)
    (hS : ∀ a, a < N → SkelOk ns (S a)) {M : Nat → Master} {m m1 : Nat → Mem X} {post : (Nat → Mem X) → Prop}
    (hm : ∀ a, a < N → m1 a = ((skelM ns u a (S a)).map Prod.snd).foldl exec1 (m a))
    (h : MastersOk N ns M m1 post) (prog : Nat → List CInstr)
    (hprog : ∀ p, p < N * ns → prog p = (OnNode.code (S (p / ns)) (p % ns)).map (fromAct ns u (p / ns)) ++
      (share ns (p % ns) (M (p / ns))).flatMap (expandRaw ns (p % ns)))
    (hz : ∀ p, ¬p < N * ns → prog p = [])
    (gen : Nat → Option (List PLine)) (cin : Nat → List PLine)
    (hin : ∀ a, a < N → Cut ns (skelM ns u a (S a)) (syncs (S a)) fun r => shape (cin (a * ns + r)))
    (hcode : ∀ p, p < N * ns → (cin p).flatMap (lineCode ns (p % ns)) = (OnNode.code (S (p / ns)) (p % ns)).map (fromAct ns u (p / ns)))
    (hgen : ∀ p, p < N * ns → gen p = some (cin p ++ (share ns (p % ns) (M (p / ns))).map (rawLine ns (p % ns))))
    (d : Nat) (hl : ∀ a, a < N → (∃ S', S a = OnNode.leadSk ns 0 d ++ S') ∧ (none, .barrier) ∈ M a ∨
      S a = [] ∧ d = 1 ∧ ∃ M', M a = (none, .barrier) :: M' ∧ (none, .barrier) ∈ M')
    (hd : d = 2 → ∀ a, a < N → ∃ x, x ∈ skelM ns u a (S a) ∧ x.2 ≠ .barrier) : Lined N ns d gen prog m post := by
  obtain ⟨k, e, h1, h2, h3⟩ := h.run
  refine ⟨hz, _, _, fun p => cin p ++ (share ns (p % ns) (M (p / ns))).map (rawLine ns (p % ns)),
    (piece_cluster hns u S M m m1 hS hm h.wf h.free h.waits h.tags h1 h2 h3).congr hprog, led_cluster u S M d hl,
    fun p hp => ⟨hgen p hp, ?_⟩, fun a ha => ?_, fun h2 a ha => ?_⟩
  · rw [hprog p hp, List.flatMap_append, hcode p hp, rawLine_code]
  · rw [show syncs (fullSk ns (S a) (M a)) = syncs (S a) ++ syncs (OnNode.leadSk ns 0 (bars (M a))) from syncs_append _ _]
    refine ((hin a ha).append (cut_master (h.wf a ha))).congr fun r hr => ?_
    rw [shape_append, proc_mod hr, proc_div hr]
  · subst h2
    obtain ⟨x, hx, hb⟩ := hd rfl a ha
    rcases hl a ha with ⟨⟨S', e⟩, hm⟩ | ⟨_, h, _⟩
    · rw [show syncs (fullSk ns (S a) (M a)) = syncs (S a) ++ syncs (OnNode.leadSk ns 0 (bars (M a))) from syncs_append _ _]
      have hn : ∀ {A : Master}, x ∈ List.replicate (K ns * 2) (none, .barrier) ++ A → x ∈ A := fun h => by
        rcases List.mem_append.1 h with h | h
        · rw [(List.mem_replicate.1 h).2] at hb
          exact absurd rfl hb
        · exact h
      rw [e, skelM_append, skelM_lead] at hx ⊢
      obtain ⟨G, H, hGH⟩ := List.append_of_mem (hn hx)
      have hlen := bars_skel ns u a S'
      rw [hGH, bars_append, bars_cons] at hlen
      obtain ⟨E1, E2, ws1, ws2, f1, f2, f3⟩ := full_master ns u a [] hm
      have hx0 : bars [x] = 0 := by
        obtain ⟨o, i⟩ := x
        cases i with
        | barrier => exact absurd rfl hb
        | copy red d s n => rfl
        | irecv b n q => rfl
        | isend b n q => rfl
        | waitall => rfl
      refine ⟨nodeBar ns ++ G, nodeWs ns ++ (syncs S').take (bars G), x, H ++ elemM (K ns) (M a),
        (syncs S').drop (bars G) ++ syncs (OnNode.leadSk ns 0 (bars (M a))), ?_, ?_, ?_, hb, H ++ E1, E2, (syncs S').drop (bars G) ++ ws1, ws2, ?_, ?_, ?_⟩
      · rw [hGH, Nat.mul_two, List.replicate_add]
        simp only [List.append_assoc, List.cons_append]
        rfl
      · rw [syncs_append, show (2 : Nat) = 1 + 1 from rfl, lead_add, syncs_append, syncs_lead_one, List.append_assoc, List.append_assoc]
        show nodeWs ns ++ (nodeWs ns ++ _) = _
        rw [List.append_assoc, ← List.append_assoc (List.take _ _), List.take_append_drop]
      · rw [List.length_append, bars_append, nodeWs_length, bars_nodeBar, List.length_take]
        omega
      · rw [List.append_assoc, ← f1]
        rfl
      · rw [List.append_assoc, ← f2]
        rfl
      · rw [List.length_append, bars_append, f3, List.length_drop]
        omega
    · exact absurd h (by decide)

/-- Instructions of a node of which all shares start with a barrier. -/
theorem head_barrier {N ns a : Nat} (hns : 0 < ns) {M : Master} (hw : ∀ x, x ∈ M → WF N ns a x)
    (h : ∀ r, r < ns → ∃ l, share ns r M = .barrier :: l) : ∃ M', M = (none, .barrier) :: M' := by
  cases M with
  | nil =>
    obtain ⟨l, hl⟩ := h 0 hns
    cases hl
  | cons x M =>
    obtain ⟨o, i⟩ := x
    have hx := hw _ List.mem_cons_self
    cases o with
    | none =>
      obtain ⟨l, hl⟩ := h 0 hns
      rw [share_all] at hl
      have := (List.cons.inj hl).1
      rw [toProc_barrier] at this
      rw [this]
      exact ⟨_, rfl⟩
    | some o =>
      have ho : o < ns := by
        cases i <;> simp only [WF] at hx
        · exact hx
        · exact hx.1
        · exact hx.1
      obtain ⟨l, hl⟩ := h o ho
      rw [share_own] at hl
      have := (List.cons.inj hl).1
      rw [toProc_barrier] at this
      rw [this] at hx
      exact absurd hx (by simp [WF])

/-- Instructions of a node of which all shares start with a barrier and contain another one. -/
theorem head_barriers {N ns a : Nat} (hns : 0 < ns) {M : Master} (hw : ∀ x, x ∈ M → WF N ns a x)
    (h : ∀ r, r < ns → ∃ l, share ns r M = .barrier :: l ∧ .barrier ∈ l) :
    ∃ M', M = (none, .barrier) :: M' ∧ (none, .barrier) ∈ M' := by
  obtain ⟨M', rfl⟩ := head_barrier hns hw fun r hr => (h r hr).imp fun _ h => h.1
  refine ⟨M', rfl, ?_⟩
  obtain ⟨l, h1, h2⟩ := h 0 hns
  rw [share_all] at h1
  obtain ⟨_, rfl⟩ := List.cons.inj h1
  unfold share at h2
  obtain ⟨⟨o, i⟩, hx, h⟩ := List.mem_filterMap.1 h2
  split at h
  · have hi : i = .barrier := toProc_barrier.1 (Option.some.inj h)
    subst hi
    have := hw _ (List.mem_cons_of_mem _ hx)
    cases o with
    | none => exact hx
    | some o => exact absurd this (by simp [WF])
  · cases h

theorem gatherProgram_head {N ns : Nat} {cnt : Nat → Nat} {perm : List Nat} {sched : List Block} {node rank : Nat} {l : List Instr}
    (h : gatherProgram N ns cnt perm sched node rank = some l) : ∃ l', l = .barrier :: l' ∧ .barrier ∈ l' := by
  unfold gatherProgram at h
  cases ht : tasks N ns perm node rank sched with
  | none => rw [ht] at h; cases h
  | some a =>
    rw [ht, Option.bind_some] at h
    split at h
    · split at h
      · cases h
        exact ⟨_, rfl, by simp⟩
      · cases h
    · cases h

theorem masterBlocks_barrier (N ns : Nat) (sz : Nat → Nat) (perm : List Nat) (a : Nat) (bs : List Block) : ∀ first,
    (none, .barrier) ∈ masterBlocks N ns sz perm a first bs := by
  induction bs with
  | nil => intro first; exact List.mem_cons_self
  | cons b bs ih => intro first; exact List.mem_append_right _ (ih false)

/-- The programs of an allgather. -/
theorem gather_cluster {X : Type} [Add X] {N ns : Nat} (hns : 0 < ns) {cnt : Nat → Nat} {perm : List Nat}
    {sched : Nat → List Block} {u : Users} {m : Nat → Mem X} {post : (Nat → Mem X) → Prop}
    (h : ∃ (prog : Nat → List Instr) (M : Nat → Master),
      (∀ p, p < N * ns → gatherProgram N ns cnt perm (sched (p / ns)) (p / ns) (p % ns) = some (prog p)) ∧
      (∀ p, (prog p).map (placed u p) = share ns (p % ns) (M (p / ns))) ∧ MastersOk N ns M m post) :
    ∃ prog : Nat → List CInstr,
      (∀ p, p < N * ns → allgatherProgram N ns cnt perm u (sched (p / ns)) (p / ns) (p % ns) = some (prog p)) ∧
      Lined N ns 1 (fun p => allgatherLines N ns cnt perm u (sched (p / ns)) (p / ns) (p % ns)) prog m post := by
  obtain ⟨prog, M, h1, h2, h3⟩ := h
  refine ⟨fun p => if p < N * ns then (prog p).flatMap (expand ns u p) else [], fun p hp => ?_, ?_⟩
  · unfold allgatherProgram
    dsimp only
    rw [h1 p hp, Nat.div_add_mod', if_pos hp]
    rfl
  · refine cluster_of_masters hns u (fun _ => []) (fun _ _ => skelOk_nil ns) (fun _ _ => rfl) h3 _ (fun p hp => ?_) (fun p hp => if_neg hp)
      _ (fun _ => []) (fun _ _ => .nil fun _ _ => rfl) (fun _ _ => rfl) (fun p hp => ?_) 1 (fun a ha => .inr ⟨rfl, rfl, head_barriers hns (h3.wf a ha) fun r hr => ?_⟩) fun h => absurd h (by decide)
    · rw [if_pos hp, expand_share h3 hp (h2 p)]
      rfl
    · unfold allgatherLines
      rw [h1 p hp, Option.map_some, Nat.div_add_mod', lines_share h3 hp (h2 p)]
      rfl
    · have hp := proc_lt hr ha
      obtain ⟨l, hl, hb⟩ := gatherProgram_head (h1 _ hp)
      have := h2 (a * ns + r)
      rw [hl, proc_mod hr, proc_div hr] at this
      exact ⟨_, this.symm, List.mem_map.2 ⟨_, hb, rfl⟩⟩

/-- The copy-in of a reduction starts with two barriers of the node. -/
theorem multiSk_head (P : Par) (f0 : Nat) (fs : List Nat) (sz : Nat → Nat) (blk : Block) (σ : Nat → Nat) :
    ∃ B, P.multiSk f0 fs sz blk σ = OnNode.leadSk P.n 0 2 ++ B := by
  obtain ⟨B1, e1⟩ := OnNode.copyinSk_prefix (P.multi f0 sz blk σ) (OnNode.leadSk P.n 0 2)
  obtain ⟨B2, e2⟩ := OnNode.halfSk_prefix (P.multi f0 sz blk σ) (OnNode.leadSk P.n 0 2 ++ B1)
  unfold OnNode.Par.multiSk OnNode.Ctx.csk
  dsimp only
  rw [e1, e2]
  split
  · obtain ⟨B3, e3⟩ := OnNode.treeSk_prefix (P.multi f0 sz blk σ) P.s fs (OnNode.leadSk P.n 0 2 ++ B1 ++ B2)
      (P.multi f0 sz blk σ).f0 (OnNode.layout1 (P.multi f0 sz blk σ).ts (P.multi f0 sz blk σ).u (P.multi f0 sz blk σ).s
        (P.multi f0 sz blk σ).len (P.multi f0 sz blk σ).f0)
    exact ⟨_, by rw [e3]; simp only [List.append_assoc]; rfl⟩
  · obtain ⟨B3, e3⟩ := OnNode.treeSk_prefix (P.multi f0 sz blk σ) P.s fs (OnNode.leadSk P.n 0 2 ++ B1)
      (P.multi f0 sz blk σ).f0 (OnNode.layout1 (P.multi f0 sz blk σ).ts (P.multi f0 sz blk σ).u (P.multi f0 sz blk σ).s
        (P.multi f0 sz blk σ).len (P.multi f0 sz blk σ).f0)
    exact ⟨_, by rw [e3]; simp only [List.append_assoc]; rfl⟩

/-- The programs of a reduction, for schedules whose blocks lead from `A` to `B`. -/
theorem reduce_cluster {X V : Type} [AddCommMonoid X] [Add V] {N ns : Nat} (hns : 0 < ns) (sz : Nat → Nat) {perm : List Nat}
    (hp : IsPerm N perm) (sched : Nat → List Block) (u : Users) (m : Nat → Mem X) {P : Par} {f0 : Nat} {fs : List Nat}
    (hP : P.Multi f0 fs) (hn : P.n = ns) (hlen : P.len = moffset sz N)
    (b0 last : Nat → Block) (bs : Nat → List Block)
    (hs : ∀ t, t < N → sched t = b0 t :: bs t ∧ (bs t).getLast? = some (last t))
    (v s' : Nat → Nat → V) (hrun : Run N bs v s')
    (hag : ∀ k, (∀ a, a < N → k < (bs a).length) → Agree N ns perm fun a => (bs a).getD k [])
    (hgood : ∀ t, t < N → ∀ b, b ∈ sched t → Good N b)
    (hfrac0 : ∀ t, t < N → ∀ l, l ∈ b0 t → l.frac < N) (hfrac1 : ∀ t, t < N → ∀ l, l ∈ last t → l.frac < N)
    (hfull : ∀ t, t < N → P.len ≤ OnNode.total sz (b0 t))
    (A B : Nat → Mem X → Prop)
    (hA : ∀ a, a < N → ∀ mem : Mem X, (∀ e, e < P.len → mem (.shm 0) e =
      ∑ q ∈ Finset.range ns, m a .send (u.send (a * ns + q) + sig sz (b0 a) e)) → A a mem)
    (hmid : ∀ (S : State X) (R : Nat → List Instr) (m1 : Nat → Mem X),
      Quiet N S (fun t => blocksCode N (mmsize N sz) t true (bs t) ++ R t) m1 → (∀ t, t < N → A t (m1 t)) →
      ∃ S' m2, Reach N S S' ∧ Quiet N S' R m2 ∧ (∀ t, t < N → B t (m2 t)) ∧
        ∀ t, t < N → ∀ r, (∀ k, r ≠ .shm k) → m2 t r = m1 t r)
    (out : Nat → Nat → Block → List Instr)
    (hcong : ∀ a r, a < N → r < ns → out a r (tasksBlock N ns perm a r (last a)) = out a r (last a))
    (hcop : ∀ a r i, a < N → i ∈ out a r (last a) → ∃ d s n, i = .copy false ⟨.recv, d⟩ ⟨.shm 0, s⟩ n)
    (hfree : ∀ a, a < N → mfree (perProc ns fun r => (out a r (last a)).map (placed u (a * ns + r))))
    (Q : Nat → Mem X → Prop)
    (hout : ∀ a, a < N → ∀ m2, B a m2 → (∀ r, (∀ k, r ≠ .shm k) → m2 r = m a r) →
      Q a (((List.range ns).flatMap fun r => (out a r (last a)).map (placed u (a * ns + r))).foldl exec1 m2)) :
    ∃ prog : Nat → List CInstr,
      (∀ p, p < N * ns → reduceProgram N ns P sz (out (p / ns) (p % ns)) perm u (sched (p / ns)) (p / ns) (p % ns) =
        some (prog p)) ∧
      Lined N ns 2 (fun p => reduceLines N ns P sz (out (p / ns) (p % ns)) perm u (sched (p / ns)) (p / ns) (p % ns)) prog m
        fun mem => ∀ a, a < N → Q a (mem a) := by
  subst hn
  have hlast : ∀ t, t < N → (sched t).getLast? = some (last t) := by
    intro t ht
    obtain ⟨h1, h2⟩ := hs t ht
    rw [h1, List.getLast?_cons, h2]; rfl
  have mb0 : ∀ t, t < N → b0 t ∈ sched t := fun t ht => by rw [(hs t ht).1]; exact List.mem_cons_self
  have mla : ∀ t, t < N → last t ∈ sched t := fun t ht => List.mem_of_getLast? (hlast t ht)
  have mbs : ∀ t, t < N → ∀ b, b ∈ bs t → b ∈ sched t := fun t ht b hb => by
    rw [(hs t ht).1]; exact List.mem_cons_of_mem _ hb
  have hline : ∀ t, t < N → LineOk sz P.len (b0 t) (sig sz (b0 t)) := fun t ht =>
    lineOk_sig hlen (b0 t) (hfrac0 t ht) (hfull t ht)
  obtain ⟨S, hSd⟩ : ∃ S : Nat → Skel, ∀ a, S a = P.multiSk f0 fs sz (b0 a) (sig sz (b0 a)) := ⟨_, fun _ => rfl⟩
  obtain ⟨m1, hm1⟩ : ∃ m1 : Nat → Mem X, ∀ a, m1 a = ((skelM P.n u a (S a)).map Prod.snd).foldl exec1 (m a) :=
    ⟨_, fun _ => rfl⟩
  obtain ⟨O, hO⟩ : ∃ O : Nat → Master, ∀ a, O a = perProc P.n fun r => (out a r (last a)).map (placed u (a * P.n + r)) :=
    ⟨_, fun _ => rfl⟩
  obtain ⟨M, hM⟩ : ∃ M : Nat → Master, ∀ a, M a = masterBlocks N P.n (mmsize N sz) perm a true (bs a) ++ O a := ⟨_, fun _ => rfl⟩
  have hsum : ∀ a, a < N → (∀ e, e < P.len → m1 a (.shm 0) e =
      ∑ q ∈ Finset.range P.n, m a .send (u.send (a * P.n + q) + sig sz (b0 a) e)) ∧ ∀ r, r ≠ .shm 0 → m1 a r = m a r := by
    intro a ha
    rw [hm1, hSd]
    exact multi_sum hP (hline a ha) u a (m a)
  have hcopO : ∀ a, a < N → ∀ r i, i ∈ (out a r (last a)).map (placed u (a * P.n + r)) →
      ∃ d s n, i = .copy false ⟨.recv, d⟩ ⟨.shm 0, s⟩ n := by
    intro a ha r i hi
    obtain ⟨j, hj, rfl⟩ := List.mem_map.1 hi
    obtain ⟨d, s, n, rfl⟩ := hcop a r j ha hj
    exact ⟨_, _, _, rfl⟩
  have hMO : MastersOk N P.n M m1 fun mem => ∀ a, a < N → Q a (mem a) := by
    refine assembleM hns sz m1 (fun _ => []) O M bs v s' hrun hag (fun a _ => hM a) (fun a _ x hx => by cases hx) (fun a ha => ?_)
      (fun a ha => ?_) A B (fun a ha => hA a ha _ (hsum a ha).1) hmid Q fun a ha m2 hB hk => ?_
    · rw [hO]
      apply perProc_copies
      intro r i hi
      obtain ⟨d, s, n, rfl⟩ := hcopO a ha r i hi
      refine ⟨⟨_, _, _, _, rfl⟩, ?_⟩
      rintro ⟨h, _⟩
      cases h
    · rw [hM]
      exact masterBlocks_free _ _ (by rw [hO]; exact hfree a ha) _ _
    · rw [hO, perProc_snd]
      refine hout a ha m2 hB fun r hr => ?_
      rw [hk r hr]
      exact (hsum a ha).2 r (hr 0)
  obtain ⟨T, full, hlines⟩ : ∃ (T : Nat → Skel) (full : Nat → Bool), ∀ a, a < N →
      S a = OnNode.leadSk P.n 0 2 ++ (T a ++ if full a then OnNode.dis 0 (Nat.clog 2 P.n) (OnNode.nodeW P.n) else []) ∧
      ∀ r, r < P.n → ∃ c, OnNode.copyInWith false 1 ⟨.shm 0, P.len, 0⟩ P sz (b0 a) 0 0 r = some (c ++ if full a then [.barrier 0] else []) ∧
        OnNode.NoBar c ∧ c.flatMap (OnNode.Instr.acts P.n r) = OnNode.code (T a) r := by
    have : ∀ a, ∃ (T : Skel) (full : Bool), a < N → S a = OnNode.leadSk P.n 0 2 ++ (T ++ if full then OnNode.dis 0 (Nat.clog 2 P.n) (OnNode.nodeW P.n) else []) ∧
        ∀ r, r < P.n → ∃ c, OnNode.copyInWith false 1 ⟨.shm 0, P.len, 0⟩ P sz (b0 a) 0 0 r = some (c ++ if full then [.barrier 0] else []) ∧
          OnNode.NoBar c ∧ c.flatMap (OnNode.Instr.acts P.n r) = OnNode.code T r := fun a => by
      by_cases ha : a < N
      · obtain ⟨T, full, h⟩ := hP.lines (hline a ha)
        exact ⟨T, full, fun _ => by rw [hSd]; exact h⟩
      · exact ⟨[], false, fun h => absurd h ha⟩
    choose T full h using this
    exact ⟨T, full, h⟩
  have hprog : ∀ p, p < N * P.n → ∃ c, copyInC P sz (tasksBlock N P.n perm (p / P.n) (p % P.n) (b0 (p / P.n))) (p % P.n) = some c ∧
      c.flatMap (OnNode.Instr.acts P.n (p % P.n)) = OnNode.code (S (p / P.n)) (p % P.n) ∧
      ∃ pr, c = .barrier 0 :: .barrier 0 :: pr ∧
        OnNode.copyInWith false 1 ⟨.shm 0, P.len, 0⟩ P sz (b0 (p / P.n)) 0 0 (p % P.n) = some pr := by
    intro p hpn
    have ha : p / P.n < N := div_lt hpn
    have hr : p % P.n < P.n := Nat.mod_lt _ hns
    obtain ⟨pr, h1, h2⟩ := hP.program (hline _ ha) hr
    refine ⟨.barrier 0 :: .barrier 0 :: pr, ?_, ?_, pr, rfl, h1⟩
    · unfold copyInC
      rw [tasksBlock_eq hp ha _ _ (hgood _ ha _ (mb0 _ ha)), OnNode.copyInWith_map (g := newLine N P.n perm (p / P.n) (p % P.n) (b0 (p / P.n))) (fun _ => rfl), h1]
      rfl
    · rw [h2, hSd]
  obtain ⟨c, hc⟩ : ∃ c : Nat → List OnNode.Instr, ∀ p, p < N * P.n →
      copyInC P sz (tasksBlock N P.n perm (p / P.n) (p % P.n) (b0 (p / P.n))) (p % P.n) = some (c p) ∧
      (c p).flatMap (OnNode.Instr.acts P.n (p % P.n)) = OnNode.code (S (p / P.n)) (p % P.n) ∧
      ∃ pr, c p = .barrier 0 :: .barrier 0 :: pr ∧
        OnNode.copyInWith false 1 ⟨.shm 0, P.len, 0⟩ P sz (b0 (p / P.n)) 0 0 (p % P.n) = some pr := by
    refine ⟨fun p => if h : p < N * P.n then (hprog p h).choose else [], fun p h => ?_⟩
    dsimp only
    rw [dif_pos h]
    exact (hprog p h).choose_spec
  obtain ⟨tl, htl⟩ : ∃ tl : Nat → List Instr, ∀ p, tl p =
      code (blocksLines N P.n (mmsize N sz) (p / P.n) (p % P.n) true ((bs (p / P.n)).map (tasksBlock N P.n perm (p / P.n) (p % P.n)))) ++
        out (p / P.n) (p % P.n) (tasksBlock N P.n perm (p / P.n) (p % P.n) (last (p / P.n))) := ⟨_, fun _ => rfl⟩
  have hshare : ∀ p, p < N * P.n → (tl p).map (placed u p) = share P.n (p % P.n) (M (p / P.n)) := by
    intro p hpn
    have ha : p / P.n < N := div_lt hpn
    have hr : p % P.n < P.n := Nat.mod_lt _ hns
    rw [htl, hM, hO, hcong _ _ ha hr, List.map_append,
      masterBlocks_share _ hp ha hr _ (fun b hb => hgood _ ha b (mbs _ ha b hb)), placed_share (onShm_masterBlocks _ _),
      share_append, share_perProc (fun r i hi => by
        obtain ⟨d, s, n, e⟩ := hcopO _ ha r i hi
        exact ⟨_, _, _, _, e⟩) hr, Nat.div_add_mod']
  have hcond : ∀ p, p < N * P.n →
      (((bs (p / P.n)).map (tasksBlock N P.n perm (p / P.n) (p % P.n))).all TasksNode.inside &&
        (tasksBlock N P.n perm (p / P.n) (p % P.n) (b0 (p / P.n)) ++ tasksBlock N P.n perm (p / P.n) (p % P.n) (last (p / P.n))).all
          fun l => decide (l.frac < N)) = true := by
    intro p hpn
    have ha : p / P.n < N := div_lt hpn
    rw [Bool.and_eq_true]
    have hmem : ∀ b, Good N b → ∀ l, l ∈ tasksBlock N P.n perm (p / P.n) (p % P.n) b →
        ∃ l0, l0 ∈ b ∧ l = newLine N P.n perm (p / P.n) (p % P.n) b l0 := by
      intro b hb l hl
      rw [tasksBlock_eq hp ha _ b hb] at hl
      obtain ⟨l0, h1, h2⟩ := List.mem_map.1 hl
      exact ⟨l0, h1, h2.symm⟩
    refine ⟨List.all_eq_true.2 fun b hb => ?_, List.all_eq_true.2 fun l hl => decide_eq_true ?_⟩
    · obtain ⟨b', hb', rfl⟩ := List.mem_map.1 hb
      have hg := hgood _ ha b' (mbs _ ha b' hb')
      have hcv := covered_of b' (fun l hl e he => (hg l hl e he).1) (Run.reduceOk hrun _ ha b' hb')
      unfold TasksNode.inside
      rw [List.all_eq_true]
      intro l hl
      obtain ⟨l0, h1, rfl⟩ := hmem b' hg l hl
      have hlen : (tasksBlock N P.n perm (p / P.n) (p % P.n) b').length = b'.length := by
        rw [tasksBlock_eq hp ha _ b' hg, List.length_map]
      rw [hlen]
      exact (Bool.and_eq_true _ _ ▸ List.all_eq_true.1 hcv l0 h1).2
    · rcases List.mem_append.1 hl with hl | hl
      · obtain ⟨l0, h1, rfl⟩ := hmem _ (hgood _ ha _ (mb0 _ ha)) l hl
        exact hfrac0 _ ha l0 h1
      · obtain ⟨l0, h1, rfl⟩ := hmem _ (hgood _ ha _ (mla _ ha)) l hl
        exact hfrac1 _ ha l0 h1
  refine ⟨fun p => if p < N * P.n then ((c p).flatMap (OnNode.Instr.acts P.n (p % P.n))).map (fromAct P.n u (p / P.n)) ++
      (tl p).flatMap (expand P.n u p) else [], fun p hpn => ?_, ?_⟩
  · have ha : p / P.n < N := div_lt hpn
    dsimp only
    rw [if_pos hpn]
    unfold reduceProgram
    rw [tasks_some hp ha (hgood _ ha), Option.bind_some, List.getLast?_map, hlast _ ha, (hs _ ha).1, List.map_cons, Option.map_some]
    show (if _ then _ else _) = _
    rw [if_pos]
    · rw [(hc p hpn).1, Option.map_some, Nat.div_add_mod', htl]
    exact hcond p hpn
  · refine cluster_of_masters hns u S (fun a ha => ?_) (fun a _ => hm1 a) hMO _ (fun p hpn => ?_) (fun p hpn => if_neg hpn)
      _ (fun p => (c p).map (inLine P.n u (p / P.n) (p % P.n))) (fun a ha => ?_) (fun p hpn => ?_) (fun p hpn => ?_) 2
      (fun a _ => .inl ⟨?_, ?_⟩) fun _ a ha => ?_
    · rw [hSd]
      exact skelOk_multi hP (hline a ha)
    · rw [if_pos hpn, (hc p hpn).2.1, expand_share hMO hpn (hshare p hpn)]
    · obtain ⟨g1, g2⟩ := hlines a ha
      have : ∀ r, ∃ x : List OnNode.Instr, r < P.n → c (a * P.n + r) = .barrier 0 :: .barrier 0 :: (x ++ if full a then [.barrier 0] else []) ∧
          OnNode.NoBar x ∧ x.flatMap (OnNode.Instr.acts P.n r) = OnNode.code (T a) r := fun r => by
        by_cases hr : r < P.n
        · obtain ⟨x, k1, k2, k3⟩ := g2 r hr
          obtain ⟨_, _, pr, e1, e2⟩ := hc _ (proc_lt hr ha)
          rw [proc_div hr, proc_mod hr, k1] at e2
          exact ⟨x, fun _ => ⟨by rw [e1, Option.some.inj e2], k2, k3⟩⟩
        · exact ⟨[], fun h => absurd h hr⟩
      choose x hx using this
      have hT := cut_skel (u := u) (a := a) (fun r hr => (hx r hr).2.2) fun r hr => (hx r hr).2.1
      have hE : Cut P.n (skelM P.n u a (if full a then OnNode.dis 0 (Nat.clog 2 P.n) (OnNode.nodeW P.n) else []))
          (syncs (if full a then OnNode.dis 0 (Nat.clog 2 P.n) (OnNode.nodeW P.n) else []))
          fun _ => if full a then [none] else [] := by
        cases full a with
        | false => exact .nil fun _ _ => rfl
        | true =>
          simp only [if_true]
          rw [skelM_dis, syncs_dis]
          exact cut_bar P.n
      have := (cut_bar P.n).append ((cut_bar P.n).append (hT.append hE))
      rw [g1, skelM_append, skelM_append, syncs_append, syncs_append, show (2 : Nat) = 1 + 1 from rfl, lead_add, skelM_append, syncs_append,
        syncs_lead_one, skelM_lead, Nat.mul_one, List.append_assoc, List.append_assoc]
      refine this.congr fun r hr => ?_
      rw [proc_div hr, proc_mod hr, (hx r hr).1]
      cases full a with
      | false =>
        simp only [Bool.false_eq_true, if_false, List.append_nil]
        rfl
      | true =>
        simp only [if_true, List.map_cons, List.map_append]
        rw [show ∀ y z : PLine, ∀ l, y :: z :: l = [y] ++ ([z] ++ l) from fun _ _ _ => rfl, shape_append, shape_append, shape_append]
        rfl
    · rw [inLine_code _ _ _ _ (Nat.mod_lt _ hns), (hc p hpn).2.1]
    · have ha : p / P.n < N := div_lt hpn
      unfold reduceLines
      rw [tasks_some hp ha (hgood _ ha), Option.bind_some, List.getLast?_map, hlast _ ha, (hs _ ha).1, List.map_cons, Option.map_some]
      show (if _ then _ else _) = _
      rw [if_pos (hcond p hpn), (hc p hpn).1, Option.map_some, Nat.div_add_mod', ← htl, lines_share hMO hpn (hshare p hpn)]
    · rw [hSd]
      exact multiSk_head P f0 fs sz _ _
    · rw [hM]
      exact List.mem_append_left _ (masterBlocks_barrier ..)
    · by_contra hno
      have hid : ∀ (L : Master) (mem : Mem Nat), (∀ x, x ∈ L → x.2 = .barrier) → (L.map Prod.snd).foldl exec1 mem = mem := by
        intro L
        induction L with
        | nil => intro _ _; rfl
        | cons x L ih =>
          intro mem hL
          rw [List.map_cons, List.foldl_cons, hL x List.mem_cons_self]
          exact ih _ fun y hy => hL y (List.mem_cons_of_mem _ hy)
      obtain ⟨g, _⟩ := multi_sum hP (hline a ha) u a (fun r _ => if r = .send then (1 : Nat) else 0)
      have hpos : 0 < P.len := hP.len_pos
      have := g 0 hpos
      rw [← hSd, hid _ _ fun x hx => by
        by_contra hb
        exact hno ⟨x, hx, hb⟩] at this
      simp at this
      omega

end ExtMpi.Cluster
